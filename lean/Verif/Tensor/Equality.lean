import Verif.Tensor.Category

/-!
# Equality of tensor boxes and diagrams: the model (C114)

Models `Box.__eq__` and `Box.__hash__` (`lambeq/backend/tensor.py` 169-173, 289-290) and the equality that `@dataclass` generates for `Daggered`,
`Cup`, `Cap`, `Swap`, `Spider`, `Layer` and `Diagram` (tensor.py 293, 303, 620; `lambeq/backend/grammar.py` 576, 702, 1406, 1533, 1662, 1718, 1823).

Simplifications. Data are arrays or `None`. Identical objects are compared like others. The hash is a function of the text of the box, 289-290.
-/

namespace Lambeq
open Diagram
set_option linter.unusedSectionVars false
set_option linter.unusedSimpArgs false
set_option linter.unusedVariables false

/-- Broadcasting of two shapes, given from the last axis to the first: equal sizes, or one of them is 1. -/
def broadcastRev : List Nat → List Nat → Option (List Nat)
  | [], t => some t
  | s, [] => some s
  | x :: s, y :: t =>
    if x = y then (broadcastRev s t).map (x :: ·)
    else if x = 1 then (broadcastRev s t).map (y :: ·)
    else if y = 1 then (broadcastRev s t).map (x :: ·)
    else none

/-- The index into an array of shape `s` that stands at the index `i` of the broadcast shape. -/
def broadcastIdx (s i : List Nat) : List Nat :=
  List.zipWith (fun n k => if n = 1 then 0 else k) s (i.drop (i.length - s.length))

/-- `np.equal(a, b).all()`; shapes that do not fit raise `ValueError`. `None` is equal to itself only. -/
def npEqualAll {R : Type} [DecidableEq R] [Inhabited R] : Option (NdArray R) → Option (NdArray R) → Except PyErr Bool
  | none, none => .ok true
  | none, some a => .ok a.flat.isEmpty
  | some a, none => .ok a.flat.isEmpty
  | some a, some b => match broadcastRev a.shape.reverse b.shape.reverse with
    | none => .error .valueError
    | some s => .ok ((allIdx s.reverse).all (fun i => a.get (broadcastIdx a.shape i) == b.get (broadcastIdx b.shape i)))

namespace TBox
variable {R : Type} [DecidableEq R] [Inhabited R]

/-- The names: tensor.py:164, 597; grammar.py:1440, 1567, 1744, 1849. -/
def name : TBox R → List Char
  | gen n _ _ _ _ => n.toList
  | cup _ _ => ['C', 'U', 'P']
  | cap _ _ => ['C', 'A', 'P']
  | swap _ _ => ['S', 'W', 'A', 'P']
  | spider _ _ _ => ['S', 'P', 'I', 'D', 'E', 'R']
  | daggered b => b.name ++ ['†']

/-- The attribute `data`: tensor.py:166, 456-459, 497-500, 530, 567, 602. -/
def dataOf [Zero R] [One R] : TBox R → Option (NdArray R)
  | gen _ _ _ a _ => a
  | cup l _ => some (cornerArray l)
  | cap l _ => some (cornerArray l)
  | swap _ _ => none
  | spider _ _ _ => none
  | daggered b => b.dataOf

/-- tensor.py:169-173: `self.name == other.name and ...`, in this order. -/
def eqFields [Zero R] [One R] (a b : TBox R) : Except PyErr Bool :=
  if a.name = b.name then
    if a.dom = b.dom then
      if a.cod = b.cod then npEqualAll a.dataOf b.dataOf else .ok false
    else .ok false
  else .ok false

/-- `a == b`. A box of no special class is compared with any other by its fields, on either side (`Daggered.__eq__` and the others answer
`NotImplemented` to other classes); two boxes of one special class by the fields of that class. -/
def eqBox [Zero R] [One R] : TBox R → TBox R → Except PyErr Bool
  | gen n d c x z, b => eqFields (gen n d c x z) b
  | daggered a, gen n d c x z => eqFields (gen n d c x z) (daggered a)
  | daggered a, daggered b => eqBox a b
  | cup l r, gen n d c x z => eqFields (gen n d c x z) (cup l r)
  | cap l r, gen n d c x z => eqFields (gen n d c x z) (cap l r)
  | swap l r, gen n d c x z => eqFields (gen n d c x z) (swap l r)
  | spider t m k, gen n d c x z => eqFields (gen n d c x z) (spider t m k)
  | cup l r, cup l' r' => .ok (l == l' && r == r')
  | cap l r, cap l' r' => .ok (l == l' && r == r')
  | swap l r, swap l' r' => .ok (l == l' && r == r')
  | spider t m k, spider t' m' k' => .ok (t == t' && m == m' && k == k')
  | _, _ => .ok false

/-- tensor.py:600: the winding; special boxes have 0. -/
def winding : TBox R → Int
  | gen _ _ _ _ z => z
  | daggered b => b.winding
  | _ => 0

/-- tensor.py:99-105, 111-112: the text of a dimension. -/
def dimText (t : List Nat) : List Char :=
  ['D', 'i', 'm', '('] ++ (if t = [] then ['1'] else List.intercalate [',', ' '] (t.map (Nat.toDigits 10))) ++ [')']

/-- tensor.py:285-287: the text of a box, of which 289-290 takes the hash. -/
def text (b : TBox R) : List Char :=
  '[' :: (b.name ++ (List.replicate (-b.winding).toNat ['.', 'l']).flatten ++ (List.replicate b.winding.toNat ['.', 'r']).flatten ++ [';', ' '] ++
    dimText b.dom ++ [' ', '-', '>', ' '] ++ dimText b.cod ++ [']'])

end TBox

variable {R : Type} [DecidableEq R] [Inhabited R] [Zero R] [One R]

/-- `l == m` for lists of layers of the same length: the first pair of layers that differ decides. -/
def eqLayers : List (Layer Nat (TBox R)) → List (Layer Nat (TBox R)) → Except PyErr Bool
  | [], [] => .ok true
  | x :: l, y :: m =>
    if x.left = y.left then
      match TBox.eqBox x.box y.box with
      | .error e => .error e
      | .ok false => .ok false
      | .ok true => if x.right = y.right then eqLayers l m else .ok false
    else .ok false
  | _, _ => .ok false

/-- `d == e`: domain, codomain and layers. -/
def eqDiagram (d e : Diagram Nat (TBox R)) : Except PyErr Bool :=
  if d.dom = e.dom ∧ d.cod = e.cod then
    if d.layers.length = e.layers.length then eqLayers d.layers e.layers else .ok false
  else .ok false

end Lambeq
