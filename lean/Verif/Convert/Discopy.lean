import Verif.Grammar.FunctorDagger
import Verif.Grammar.Frame

/-!
# Conversion to and from DisCoPy (C107)

Models `lambeq/backend/converters/discopy.py`: `_unwind_discopy_entity` (92-98), `_wind_discopy_entity` (101-105), `ty_l2d` (108-135),
`ty_d2l` (138-164), `convert_grammar_l2d` (335-370), `convert_grammar_d2l` (373-415), `to_discopy` (450-497), `from_discopy` (500-556), for diagrams of the grammar category.

DisCoPy is not part of the repository. Its objects and boxes are modelled as data, with these assumptions: an object is a name and a winding number `z`, `l` lowers `z` by one and `r` raises it;
`dagger()` of a box or a word exchanges its domain and codomain and flips `is_dagger`, of a cup it is the cap with the same objects, of a swap and a spider as in lambeq; the constructors of cups
and caps raise an exception unless one object is the adjoint of the other; `@` and `>>` of its diagrams are those of `Verif.Grammar.Diagram`.
-/

namespace Lambeq
namespace Discopy
open Diagram

/-- An object of DisCoPy, a `Ty` of length 1 (assumption, see above). -/
structure DOb where
  name : String
  z : Int
  deriving DecidableEq

/-- `ty.l` (assumption). -/
def DOb.l (o : DOb) : DOb := ⟨o.name, o.z - 1⟩
/-- `ty.r` (assumption). -/
def DOb.r (o : DOb) : DOb := ⟨o.name, o.z + 1⟩

/-- Boxes of `discopy.grammar.pregroup` (assumption). -/
inductive DBox
  | box (name : String) (dom cod : List DOb) (z : Int) (dag : Bool)
  | word (name : String) (dom cod : List DOb) (z : Int) (dag : Bool)
  | cup (left right : DOb)
  | cap (left right : DOb)
  | swap (left right : DOb)
  | spider (nIn nOut : Nat) (typ : DOb)
  deriving DecidableEq

namespace DBox
/-- `box.dom` (assumption). -/
def dom : DBox → List DOb
  | box _ d _ _ _ => d
  | word _ d _ _ _ => d
  | cup l r => [l, r]
  | cap _ _ => []
  | swap l r => [l, r]
  | spider n _ t => List.replicate n t
/-- `box.cod` (assumption). -/
def cod : DBox → List DOb
  | box _ _ c _ _ => c
  | word _ _ c _ _ => c
  | cup _ _ => []
  | cap l r => [l, r]
  | swap l r => [r, l]
  | spider _ m t => List.replicate m t
/-- `box.is_dagger` (assumption). -/
def isDagger : DBox → Bool
  | box _ _ _ _ g => g
  | word _ _ _ _ g => g
  | _ => false
/-- `box.dagger()` (assumption). -/
def dagger : DBox → DBox
  | box n d c z g => box n c d z (!g)
  | word n d c z g => word n c d z (!g)
  | cup l r => cap l r
  | cap l r => cup l r
  | swap l r => swap r l
  | spider n m t => spider m n t
instance : BoxSig DBox DOb := ⟨dom, cod⟩
end DBox

abbrev DDiagram := Diagram DOb DBox

/-- One of two objects is the adjoint of the other (assumption: what DisCoPy's cups and caps demand). -/
def DAdjoint (l r : DOb) : Prop := l.r = r ∨ l = r.r
instance (l r : DOb) : Decidable (DAdjoint l r) := inferInstanceAs (Decidable (_ ∨ _))

/-- discopy.py:103-104: `n` rounds of the loop. -/
def windLoop (z : Int) : Nat → DOb → DOb
  | 0, o => o
  | n + 1, o => windLoop z n (if z > 0 then o.r else o.l)
/-- discopy.py:101-105 -/
def wind (o : DOb) (z : Int) : DOb := windLoop z z.natAbs o

/-- discopy.py:96-97: `n` rounds of the loop; the winding number is read in every round. -/
def unwindLoop : Nat → DOb → DOb
  | 0, o => o
  | n + 1, o => unwindLoop n (if o.z > 0 then o.l else o.r)
/-- discopy.py:92-98 -/
def unwind (o : DOb) : DOb := if o.z = 0 then o else unwindLoop o.z.natAbs o

/-- discopy.py:114-133: one object. `subty.unwind()` has winding number 0 (grammar.py:319-323). -/
def obL2D (o : Ob) : DOb := wind ⟨o.name, 0⟩ o.z
/-- discopy.py:108-135 -/
def tyL2D : Ty → List DOb
  | [] => []
  | o :: t => obL2D o :: tyL2D t

/-- discopy.py:143-160: one object. -/
def obD2L (o : DOb) : Ob := Ty.rotOb o.z ⟨(unwind o).name, 0⟩
/-- discopy.py:138-164 -/
def tyD2L : List DOb → Ty
  | [] => []
  | o :: t => obD2L o :: tyD2L t

/-- discopy.py:335-370; the constructors of cups and caps check the objects (assumption; the exception is called `ValueError` here). -/
def boxL2D : Box → Except PyErr DBox
  | .daggered b => match boxL2D b with
    | .error e => .error e
    | .ok b => .ok b.dagger
  | .cap l r _ => if DAdjoint (obL2D l) (obL2D r) then .ok (.cap (obL2D l) (obL2D r)) else .error .valueError
  | .cup l r _ => if DAdjoint (obL2D l) (obL2D r) then .ok (.cup (obL2D l) (obL2D r)) else .error .valueError
  | .swap l r => .ok (.swap (obL2D l) (obL2D r))
  | .spider t n m => .ok (.spider n m (obL2D t))
  | .word n c z => .ok (.word n [] (tyL2D c) z false)
  | .gen n d c z => .ok (.box n (tyL2D d) (tyL2D c) z false)

/-- discopy.py:378-410: a box that is not daggered. -/
def plainD2L : DBox → Except PyErr Box
  | .cap l r => Box.atomicCap (obD2L l) (obD2L r) (decide ([obD2L l] = Ty.l [obD2L r]))
  | .cup l r => Box.atomicCup (obD2L l) (obD2L r) (decide ([obD2L l] = Ty.r [obD2L r]))
  | .swap l r => .ok (.swap (obD2L l) (obD2L r))
  | .spider n m t => .ok (.spider (obD2L t) (List.replicate n t).length (List.replicate m t).length)
  | .word n _ c z _ => .ok (.word n (tyD2L c) z)
  | .box n d c z _ => .ok (.gen n (tyD2L d) (tyD2L c) z)

/-- discopy.py:373-415; `box.dagger()` of a daggered box is not daggered, so the recursion is one step deep. -/
def boxD2L (b : DBox) : Except PyErr Box :=
  if b.isDagger = true then
    match plainD2L b.dagger with
    | .error e => .error e
    | .ok b => b.daggerPy
  else plainD2L b

/-- The loop of `to_discopy` (discopy.py:489-495) and of `from_discopy` (549-554), for any conversion of types and boxes. A box may become a diagram. -/
def convLayers {O B O' B' : Type} [BoxSig B O] [BoxSig B' O'] [DecidableEq O'] (ty : List O → List O') (bx : B → Except PyErr (Diagram O' B')) :
    Diagram O' B' → List (Layer O B) → Except PyErr (Diagram O' B')
  | D, [] => .ok D
  | D, l :: ls => match bx l.box with
    | .error e => .error e
    | .ok b => match andThen D (tensor (tensor (id (ty l.left)) b) (id (ty l.right))) with
      | .error e => .error e
      | .ok D => convLayers ty bx D ls

/-- `box.to_diagram()` of a converted box. -/
def asDiagram {O B : Type} [BoxSig B O] : Except PyErr B → Except PyErr (Diagram O B)
  | .error e => .error e
  | .ok b => .ok (ofBox b)

/-- discopy.py:450-497 -/
def toDiscopy (d : GDiagram) : Except PyErr DDiagram := convLayers tyL2D (fun b => asDiagram (boxL2D b)) (id (tyL2D d.dom)) d.layers
/-- discopy.py:500-556 -/
def fromDiscopy (d : DDiagram) : Except PyErr GDiagram := convLayers tyD2L (fun b => asDiagram (boxD2L b)) (id (tyD2L d.dom)) d.layers

/-- discopy.py:361-365: a frame is a `Box` and nothing else here, so its components are dropped; a daggered frame is no `Daggered` (grammar.py:2239), so it becomes a plain box named with a dagger
(2253-2256). Left out: daggered frames around anything but a frame, which `dagger()` never makes. -/
def frameL2D : FBox → Except PyErr DBox
  | .base b => boxL2D b
  | .frame n d c _ z => .ok (.box n (tyL2D d) (tyL2D c) z false)
  | .daggeredFrame (.frame n d c _ z) => .ok (.box (n ++ "†") (tyL2D c) (tyL2D d) z false)
  | .daggeredFrame _ => .error .notImplementedError

end Discopy
end Lambeq
