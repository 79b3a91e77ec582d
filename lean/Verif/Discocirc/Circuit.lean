import Verif.Grammar.Frame
import Verif.Grammar.PermSemantics
import Verif.Grammar.Structural
import Verif.Grammar.Semantics
import Verif.Tensor.Adjoint

/-!
# DisCoCirc circuits from sentence diagrams: the model (C88)

Models the loop of `DisCoCircReader.text2circuit` (experimental/discocirc/reader.py:359-423) from the point where a sentence has been turned into a diagram, its
noun boxes and their identities. Diagrams have frames among their boxes. `α` is the type of identities of nouns (pairs of sentence and token after coreference).
-/

namespace Lambeq
open Diagram
set_option linter.unusedSimpArgs false

instance : BoxSig FBox Ob := ⟨FBox.dom, FBox.cod⟩
instance : SwapSig FBox Ob where
  swapBox x y := .base (.swap x y)
  swap_dom _ _ := rfl
  swap_cod _ _ := rfl

namespace Disco

/-- reader.py:35: `NOUN` -/
def noun : Ob := ⟨"n", 0⟩

/-- `NOUN ** k` -/
def nouns (k : Nat) : Ty := List.replicate k noun

/-- Diagrams with frames. -/
abbrev FD := Diagram Ob FBox

/-- `Diagram.dagger` -/
def fdagger (d : FD) : FD := d.daggerWith FBox.dagger

/-- `noun2wire` (identities in the order of insertion: the value of a key is its position), the number of new nouns, the boxes of new nouns, the wires not
used so far, `wire_ids`. -/
structure Wires (α β : Type) where
  n2w : List α
  pre : Nat
  boxes : List β
  anc : List Nat
  ids : List Nat

/-- reader.py:388-395 (and 207-215): one noun of the sentence. -/
def nounStep {α β : Type} [DecidableEq α] (s : Wires α β) (p : α × β) : Wires α β :=
  let s' : Wires α β := if p.1 ∈ s.n2w then s else { s with n2w := s.n2w ++ [p.1], pre := s.pre + 1, boxes := s.boxes ++ [p.2] }
  let w := s'.n2w.idxOf p.1
  { s' with anc := s'.anc.filter (fun a => a != w), ids := s'.ids ++ [w] }

/-- reader.py:384-395 (and 203-215) -/
def collect {α β : Type} [DecidableEq α] (n2w : List α) (boxes : List β) (ps : List (α × β)) : Wires α β :=
  ps.foldl nounStep ⟨n2w, 0, boxes, List.range n2w.length, []⟩

/-- reader.py:396 (and 217): `sorted(ancilla_nouns) + wire_ids` -/
def wireIds {α β : Type} (s : Wires α β) : List Nat := s.anc.insertionSort (· ≤ ·) ++ s.ids

/-- reader.py:397-399 (and 219-221): `wire_ids_lookup`; later entries of the comprehension overwrite earlier ones. -/
def lookup (ws : List Nat) : Nat → Nat :=
  ((ws.insertionSort (· ≤ ·)).reverse.zipIdx).foldl (fun f p w => if w = p.1 then ws.length - p.2 - 1 else f w) (fun _ => 0)

/-- reader.py:400-404 (and 222-225) -/
def permAux : (Nat → Nat) → List Nat → List Int
  | _, [] => []
  | f, w :: ws => (f w : Int) :: permAux (fun v => if v = w then f v + 1 else f v) ws

def permList (ws : List Nat) : List Int := permAux (lookup ws) ws

/-- reader.py:406-413; the wires have numbers 0 to `max`. -/
def spidering (ws : List Nat) : FD :=
  tensorN (Diagram.id [] :: (List.range (ws.foldr max 0 + 1)).map (fun w =>
    if ws.count w = 1 then Diagram.id [noun] else ofBox (.base (.spider noun 1 (ws.count w)))))

/-- reader.py:406-417: `matcher` -/
def matcher (ws : List Nat) : Except PyErr FD :=
  match ws with
  | [] => .error .valueError
  | _ => match permutation (B := FBox) (nouns ws.length) (permList ws) with
    | .error e => .error e
    | .ok q => andThen (spidering ws) q

/-- A sentence: its diagram, and its nouns (identity, box). -/
abbrev Sentence (α : Type) := FD × List (α × FBox)

/-- `noun2wire`, `noun_boxes`, `bigdiag` -/
abbrev Big (α : Type) := List α × List FBox × FD

/-- reader.py:419-422: `bigdiag @ NOUN ** pre >> matcher >> NOUN ** anc @ sdiag >> matcher.dagger()` -/
def attach (big m sdiag : FD) (pre anc : Nat) : Except PyErr FD :=
  match andThen (tensor big (Diagram.id (nouns pre))) m with
  | .error e => .error e
  | .ok d1 => match andThen d1 (tensor (Diagram.id (nouns anc)) sdiag) with
    | .error e => .error e
    | .ok d2 => andThen d2 (fdagger m)

/-- reader.py:384-422: one sentence. -/
def sentenceStep {α : Type} [DecidableEq α] (st : Big α) (s : Sentence α) : Except PyErr (Big α) :=
  let c := collect st.1 st.2.1 s.2
  match matcher (wireIds c) with
  | .error e => .error e
  | .ok m => match attach st.2.2 m s.1 c.pre c.anc.length with
    | .error e => .error e
    | .ok d => .ok (c.n2w, c.boxes, d)

/-- reader.py:363-422 -/
def textLoop {α : Type} [DecidableEq α] : Big α → List (Sentence α) → Except PyErr (Big α)
  | st, [] => .ok st
  | st, s :: ss => match sentenceStep st s with
    | .error e => .error e
    | .ok st' => textLoop st' ss

/-- reader.py:359-423 -/
def assemble {α : Type} [DecidableEq α] (ss : List (Sentence α)) : Except PyErr FD :=
  match textLoop ([], [], Diagram.id []) ss with
  | .error e => .error e
  | .ok st => andThen (tensorN (Diagram.id [] :: st.2.1.map ofBox)) st.2.2

/-! ## Specification -/

/-- The entities of a text in the order in which they are first mentioned. -/
def entities {α : Type} [DecidableEq α] (es : List α) : List α → List α
  | [] => es
  | a :: as => entities (if a ∈ es then es else es ++ [a]) as

/-- The boxes of the entities that a sentence mentions for the first time. -/
def firstBoxes {α β : Type} [DecidableEq α] (es : List α) : List (α × β) → List β
  | [] => []
  | p :: ps => if p.1 ∈ es then firstBoxes es ps else p.2 :: firstBoxes (es ++ [p.1]) ps

/-- The labels on the wires `ws`. -/
def pick (x : List Nat) (ws : List Nat) : List Nat := ws.map (fun w => x.getD w 0)

/-- The product of the states of boxes without inputs and with one output. -/
def rowTen {R : Type} [CommSemiring R] (I : Interp Ob FBox R) : List FBox → List Nat → R
  | [], _ => 1
  | b :: bs, y => I.ten b [] (y.take 1) * rowTen I bs (y.drop 1)

/-- The joint state of the entities after one more sentence: the new entities start in their noun states; the map of the sentence acts on the wires of the
entities it mentions (an entity mentioned several times is copied to the inputs, and its outputs must agree); the other entities keep their state. -/
def afterSentence {α R : Type} [DecidableEq α] [CommSemiring R] (I : Interp Ob FBox R) (es : List α) (v : List Nat → R) (s : Sentence α) (y : List Nat) : R :=
  let es' := entities es (s.2.map Prod.fst)
  let ws := s.2.map (fun p => es'.idxOf p.1)
  ∑ z ∈ I.idx (nouns es'.length), v (z.take es.length) * rowTen I (firstBoxes es s.2) (z.drop es.length) *
    (if ∀ w < es'.length, w ∉ ws → y.getD w 0 = z.getD w 0 then I.mat s.1 (pick z ws) (pick y ws) else 0)

/-- The joint state of the entities of a text. -/
def meaning {α R : Type} [DecidableEq α] [CommSemiring R] (I : Interp Ob FBox R) : List α → (List Nat → R) → List (Sentence α) → List Nat → R
  | _, v, [] => v
  | es, v, s :: ss => meaning I (entities es (s.2.map Prod.fst)) (afterSentence I es v s) ss

/-- What the sentence diagrams of a text look like: as many noun wires in and out as nouns, and nouns are boxes without inputs and with one noun output. -/
structure Sentence.Ok {α : Type} (s : Sentence α) : Prop where
  wt : s.1.WT
  dom : s.1.dom = nouns s.2.length
  cod : s.1.cod = nouns s.2.length
  boxes : ∀ p ∈ s.2, p.2.dom = [] ∧ p.2.cod = [noun]

end Disco
end Lambeq
