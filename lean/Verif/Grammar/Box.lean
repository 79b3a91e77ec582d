import Verif.Grammar.Diagram
import Verif.Grammar.TyProps

/-!
# Boxes of the grammar category

Models `lambeq/backend/grammar.py`: `Box` (452-572), `Cap` (1405-1529), `Cup` (1532-1659),
`Daggered` (1662-1714), `Spider` (1717-1819), `Swap` (1822-1911), `Word` (1914-1970).
Frames are modelled in `Verif.Grammar.Frame`.

Constructors `cup`, `cap`, `swap`, `spider` are the *atomic* boxes (the dataclass instances); the
class constructors `Cup(..)` etc. applied to compound types build diagrams and are `mkCup` etc.
-/

namespace Lambeq

/-- The instances of `Box` and its subclasses. -/
inductive Box
  | gen (name : String) (dom cod : Ty) (z : Int)
  | word (name : String) (cod : Ty) (z : Int)
  | cup (left right : Ob) (isReversed : Bool)
  | cap (left right : Ob) (isReversed : Bool)
  | swap (left right : Ob)
  | spider (type : Ob) (nIn nOut : Nat)
  | daggered (box : Box)
  deriving DecidableEq

abbrev GLayer := Layer Ob Box
abbrev GDiagram := Diagram Ob Box

namespace Box

mutual
/-- grammar.py:470; 1441 (cap); 1568 (cup); 1680 (daggered); 1745 (spider); 1850 (swap); 1936 (word) -/
def dom : Box → Ty
  | gen _ d _ _ => d
  | word _ _ _ => []
  | cup l r _ => [l, r]
  | cap _ _ _ => []
  | swap l r => [l, r]
  | spider t n _ => List.replicate n t
  | daggered b => cod b
/-- grammar.py:471; 1442 (cap); 1569 (cup); 1681 (daggered); 1746 (spider); 1851 (swap); 1931 (word) -/
def cod : Box → Ty
  | gen _ _ c _ => c
  | word _ c _ => c
  | cup _ _ _ => []
  | cap l r _ => [l, r]
  | swap l r => [r, l]
  | spider t _ m => List.replicate m t
  | daggered b => dom b
end

instance : BoxSig Box Ob := ⟨dom, cod⟩

/-- The winding number, grammar.py:472, 1443, 1570, 1682, 1739, 1843. -/
def z : Box → Int
  | gen _ _ _ z => z
  | word _ _ z => z
  | cup _ _ rev => if rev then 1 else 0
  | cap _ _ rev => if rev then 1 else 0
  | swap _ _ => 0
  | spider _ _ _ => 0
  | daggered b => z b

/-- `Cup._check_adjoint`, grammar.py:1572-1579, on types. -/
def cupAdjoint (left right : Ty) (rev : Bool) : Bool :=
  if rev then decide (left = Ty.r right) else decide (left = Ty.l right)

/-- `Cap._check_adjoint`, grammar.py:1445-1452, on types. -/
def capAdjoint (left right : Ty) (rev : Bool) : Bool :=
  if rev then decide (left = Ty.l right) else decide (left = Ty.r right)

/-- `Cup(left, right, is_reversed)` on atomic types: grammar.py:1562-1570. -/
def atomicCup (l r : Ob) (rev : Bool) : Except PyErr Box :=
  if cupAdjoint [l] [r] rev then .ok (cup l r rev) else .error .valueError

/-- `Cap(left, right, is_reversed)` on atomic types: grammar.py:1435-1443. -/
def atomicCap (l r : Ob) (rev : Bool) : Except PyErr Box :=
  if capAdjoint [l] [r] rev then .ok (cap l r rev) else .error .valueError

/-- The boxes that can exist: cups and caps have passed their constructor check. -/
def Valid : Box → Prop
  | cup l r rev => cupAdjoint [l] [r] rev = true
  | cap l r rev => capAdjoint [l] [r] rev = true
  | daggered b => Valid b
  | _ => True

/-- The `dagger` methods as written, going through the constructors:
grammar.py:524-525, 1495-1499, 1622-1628, 1688-1689, 1787-1788, 1881-1882, 1948-1949. -/
def daggerPy : Box → Except PyErr Box
  | gen n d c z => .ok (daggered (gen n d c z))
  | word n c z => .ok (daggered (word n c z))
  | cup l r rev => atomicCap l r (!rev)
  | cap l r rev => atomicCup l r (!rev)
  | swap l r => .ok (swap r l)
  | spider t n m => .ok (spider t m n)
  | daggered b => .ok b

/-- The `rotate` methods as written: grammar.py:506-511 (Box), 1484-1493 (Cap), 1611-1620 (Cup),
1684-1686 (Daggered), 1783-1785 (Spider), 1873-1879 (Swap), 1944-1946 (Word). -/
def rotatePy (z : Int) : Box → Except PyErr Box
  | gen n d c z0 => .ok (gen n (Ty.rotate z d) (Ty.rotate z c) (z0 + z))
  | word n c z0 => .ok (word n (Ty.rotate z c) (z0 + z))
  | cup l r rev =>
    let lr := if z % 2 = 1 then (r, l) else (l, r)
    atomicCup (Ty.rotOb z lr.1) (Ty.rotOb z lr.2) (((if rev then 1 else 0) + z) % 2 = 1)
  | cap l r rev =>
    let lr := if z % 2 = 1 then (r, l) else (l, r)
    atomicCap (Ty.rotOb z lr.1) (Ty.rotOb z lr.2) (((if rev then 1 else 0) + z) % 2 = 1)
  | swap l r =>
    let lr := if z % 2 = 1 then (r, l) else (l, r)
    .ok (swap (Ty.rotOb z lr.1) (Ty.rotOb z lr.2))
  | spider t n m =>
    .ok (spider (Ty.rotOb z t) (List.replicate n t).length (List.replicate m t).length)
  | daggered b => match rotatePy z b with
    | .ok b' => .ok (daggered b')
    | .error e => .error e

/-- `daggerPy` without the adjointness checks (equal to it on valid boxes, `daggerPy_eq`). -/
def dagger : Box → Box
  | gen n d c z => daggered (gen n d c z)
  | word n c z => daggered (word n c z)
  | cup l r rev => cap l r (!rev)
  | cap l r rev => cup l r (!rev)
  | swap l r => swap r l
  | spider t n m => spider t m n
  | daggered b => b

/-- `rotatePy` without the adjointness checks (equal to it on valid boxes, `rotatePy_eq`). -/
def rotate (z : Int) : Box → Box
  | gen n d c z0 => gen n (Ty.rotate z d) (Ty.rotate z c) (z0 + z)
  | word n c z0 => word n (Ty.rotate z c) (z0 + z)
  | cup l r rev =>
    if z % 2 = 1 then cup (Ty.rotOb z r) (Ty.rotOb z l) (!rev) else cup (Ty.rotOb z l) (Ty.rotOb z r) rev
  | cap l r rev =>
    if z % 2 = 1 then cap (Ty.rotOb z r) (Ty.rotOb z l) (!rev) else cap (Ty.rotOb z l) (Ty.rotOb z r) rev
  | swap l r =>
    if z % 2 = 1 then swap (Ty.rotOb z r) (Ty.rotOb z l) else swap (Ty.rotOb z l) (Ty.rotOb z r)
  | spider t n m => spider (Ty.rotOb z t) n m
  | daggered b => daggered (rotate z b)

/-- Daggered boxes that arise from the `dagger` method wrap a plain box or a word. -/
def Simple : Box → Prop
  | daggered (gen _ _ _ _) => True
  | daggered (word _ _ _) => True
  | daggered _ => False
  | _ => True

end Box

/-! ## Diagram methods specific to the grammar category -/

namespace GLayer
/-- grammar.py:622-632 -/
def rotate (z : Int) (l : GLayer) : GLayer :=
  if z % 2 = 1 then ⟨Ty.rotate z l.right, l.box.rotate z, Ty.rotate z l.left⟩
  else ⟨Ty.rotate z l.left, l.box.rotate z, Ty.rotate z l.right⟩
end GLayer

namespace GDiagram

/-- grammar.py:1064-1071 -/
def dagger (d : GDiagram) : GDiagram := Diagram.daggerWith Box.dagger d

/-- grammar.py:1050-1054 -/
def rotate (z : Int) (d : GDiagram) : GDiagram :=
  ⟨Ty.rotate z d.dom, Ty.rotate z d.cod, d.layers.map (GLayer.rotate z)⟩

/-- All boxes of the diagram have passed their constructor checks. -/
def Valid (d : GDiagram) : Prop := ∀ l ∈ d.layers, l.box.Valid

/-- Diagram-level `dagger` as written, i.e. running the constructors' checks on every box. -/
def daggerPy (d : GDiagram) : Except PyErr GDiagram :=
  if d.layers.isEmpty then .ok d
  else match d.layers.reverse.mapM (fun l => (l.box.daggerPy).map (fun b => { l with box := b })) with
    | .ok ls => .ok ⟨d.cod, d.dom, ls⟩
    | .error e => .error e

/-- Diagram-level `rotate` as written, i.e. running the constructors' checks on every box. -/
def rotatePy (z : Int) (d : GDiagram) : Except PyErr GDiagram :=
  match d.layers.mapM (fun l => (l.box.rotatePy z).map (fun b =>
      if z % 2 = 1 then (⟨Ty.rotate z l.right, b, Ty.rotate z l.left⟩ : GLayer)
      else ⟨Ty.rotate z l.left, b, Ty.rotate z l.right⟩)) with
    | .ok ls => .ok ⟨Ty.rotate z d.dom, Ty.rotate z d.cod, ls⟩
    | .error e => .error e

end GDiagram
end Lambeq
