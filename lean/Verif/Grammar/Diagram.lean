import Verif.Py

/-!
# Layers and diagrams

Models `lambeq/backend/grammar.py` classes `Layer` (575-693) and `Diagram` (701-1163), generically
in the type `O` of atomic objects and the type `B` of boxes (the Python classes are shared by the
grammar, tensor and quantum categories through `Category`).  A type is its list of atoms (see
`Verif.Grammar.Ty`).  `lift` (929-962) only calls `to_diagram` and checks categories; here every
argument already is a diagram of the category.
-/

namespace Lambeq

/-- Domain and codomain of a box (grammar.py:470-471). -/
class BoxSig (B : Type) (O : outParam Type) where
  dom : B → List O
  cod : B → List O

/-- grammar.py:575-592 -/
@[ext] structure Layer (O B : Type) where
  left : List O
  box : B
  right : List O
  deriving DecidableEq

/-- grammar.py:701-718 -/
@[ext] structure Diagram (O B : Type) where
  dom : List O
  cod : List O
  layers : List (Layer O B)
  deriving DecidableEq

variable {O B : Type} [BoxSig B O]

namespace Layer

/-- grammar.py:601-603 -/
def dom (l : Layer O B) : List O := l.left ++ BoxSig.dom l.box ++ l.right
/-- grammar.py:605-607 -/
def cod (l : Layer O B) : List O := l.left ++ BoxSig.cod l.box ++ l.right

/-- grammar.py:612-620 -/
def extend (a b : List O) (l : Layer O B) : Layer O B :=
  { l with left := a ++ l.left, right := l.right ++ b }

end Layer

namespace Diagram

/-- grammar.py:816-820 -/
def id (t : List O) : Diagram O B := ⟨t, t, []⟩

/-- grammar.py:487-495 `Box.to_diagram` -/
def ofBox (b : B) : Diagram O B := ⟨BoxSig.dom b, BoxSig.cod b, [⟨[], b, []⟩]⟩

/-- grammar.py:826-828 -/
def boxes (d : Diagram O B) : List B := d.layers.map (·.box)

/-- grammar.py:988-991 -/
def offsets (d : Diagram O B) : List Nat := d.layers.map (·.left.length)

/-- One iteration of the loop of `tensor`, grammar.py:975-978; the state is `(left, right, layers)`. -/
def tensorStep (st : List O × List O × List (Layer O B)) (d : Diagram O B) :
    List O × List O × List (Layer O B) :=
  let right := st.2.1.drop d.dom.length
  (st.1 ++ d.cod, right, st.2.2 ++ d.layers.map (Layer.extend st.1 right))

/-- grammar.py:964-980 `self.tensor(*diagrams)`; the list is `[self, *diagrams]`. -/
def tensorN (ds : List (Diagram O B)) : Diagram O B :=
  let dom := (ds.map (·.dom)).flatten
  let st := ds.foldl tensorStep ([], dom, [])
  ⟨dom, st.1, st.2.2⟩

/-- grammar.py:982-983 `self @ rhs` -/
def tensor (f g : Diagram O B) : Diagram O B := tensorN [f, g]

/-- The loop of `then`, grammar.py:1031-1037, on the state `(cod, layers)`. -/
def thenLoop [DecidableEq O] : List O → List (Layer O B) → List (Diagram O B) →
    Except PyErr (List O × List (Layer O B))
  | cod, layers, [] => .ok (cod, layers)
  | cod, layers, d :: ds =>
    if d.dom ≠ cod then .error .valueError
    else thenLoop d.cod (layers ++ d.layers) ds

/-- grammar.py:1023-1039 `self.then(*diagrams)` -/
def thenN [DecidableEq O] (self : Diagram O B) (ds : List (Diagram O B)) :
    Except PyErr (Diagram O B) :=
  match thenLoop self.cod self.layers ds with
  | .error e => .error e
  | .ok (cod, layers) => .ok ⟨self.dom, cod, layers⟩

/-- grammar.py:1047-1048 `self >> rhs` -/
def andThen [DecidableEq O] (f g : Diagram O B) : Except PyErr (Diagram O B) := thenN f [g]

/-- grammar.py:1041-1045 -/
def thenAt [DecidableEq O] (self g : Diagram O B) (index : Int) : Except PyErr (Diagram O B) :=
  andThen self (tensor (tensor (id (pySlice self.cod none (some index))) g)
    (id (pySlice self.cod (some (index + g.dom.length)) none)))

/-- grammar.py:1064-1071; `bdag` is the `dagger` method of boxes. -/
def daggerWith (bdag : B → B) (d : Diagram O B) : Diagram O B :=
  if d.layers.isEmpty then d
  else ⟨d.cod, d.dom, d.layers.reverse.map (fun l => { l with box := bdag l.box })⟩

/-- grammar.py:1006-1014: `self[start:stop]`, step 1 or omitted. -/
def slice (d : Diagram O B) (start stop : Option Int) : Except PyErr (Diagram O B) :=
  let layers := pySlice d.layers start stop
  match layers.head?, layers.getLast? with
  | some a, some z => .ok ⟨a.dom, z.cod, layers⟩
  | _, _ =>
    let s := start.getD 0
    if s ≥ d.layers.length then .ok (id d.cod)
    else if s ≤ -(d.layers.length : Int) then .ok (id d.dom)
    else match pyGet d.layers s with
      | .ok l => .ok (id l.dom)
      | .error e => .error e

/-- grammar.py:1015-1020: `self[key]` for an integer key. -/
def getInt (d : Diagram O B) (key : Int) : Except PyErr (Diagram O B) :=
  if key ≥ d.layers.length ∨ key < -(d.layers.length : Int) then .error .indexError
  else
    let k := if key < 0 then d.layers.length + key else key
    slice d (some k) (some (k + 1))

/-- Python `l[start:stop:-1]` on a list. -/
def pySliceRev {α : Type} (l : List α) (start stop : Option Int) : List α :=
  let n : Int := l.length
  -- language reference: for negative steps bounds clamp to [-1, n-1]
  let clamp := fun (i : Int) => if i < 0 then max (n + i) (-1) else min i (n - 1)
  let s : Int := match start with | none => n - 1 | some i => clamp i
  let e : Int := match stop with | none => -1 | some i => clamp i
  -- the elements at positions s, s-1, ..., e+1
  ((l.take (s + 1).toNat).drop (e + 1).toNat).reverse

/-- grammar.py:1001-1003: `self[start:stop:-1]`. -/
def sliceRevWith (bdag : B → B) (d : Diagram O B) (start stop : Option Int) : Diagram O B :=
  ⟨d.cod, d.dom, (pySliceRev d.layers start stop).map (fun l => { l with box := bdag l.box })⟩

/-! ## Specification: well-typedness -/

/-- The layers lead from `a` to `c`, each layer starting where the previous one ended. -/
def Chain : List O → List (Layer O B) → List O → Prop
  | a, [], c => a = c
  | a, l :: ls, c => l.dom = a ∧ Chain l.cod ls c

/-- Well-typed diagrams: the layers lead from `dom` to `cod`. -/
def WT (d : Diagram O B) : Prop := Chain d.dom d.layers d.cod

/-- Well-typedness is decidable (used in the non-vacuity examples). -/
def decChain [DecidableEq O] : (a : List O) → (ls : List (Layer O B)) → (c : List O) →
    Decidable (Chain a ls c)
  | a, [], c => inferInstanceAs (Decidable (a = c))
  | a, l :: ls, c =>
    have := decChain l.cod ls c
    inferInstanceAs (Decidable (l.dom = a ∧ Chain l.cod ls c))

instance [DecidableEq O] (a : List O) (ls : List (Layer O B)) (c : List O) :
    Decidable (Chain a ls c) := decChain a ls c

instance [DecidableEq O] (d : Diagram O B) : Decidable d.WT :=
  inferInstanceAs (Decidable (Chain _ _ _))

end Diagram
end Lambeq
