import Verif.Rewrite.RulesProps
import Verif.Rewrite.RemoveCupsProps

/-!
# Ansätze that split boxes

Models `lambeq/ansatz/tensor.py`: the constructors of `MPSAnsatz` (163-200) and `SpiderAnsatz` (228-256), their methods `_split_ar` (202-222, 258-277), and
the functor `split_functor` (196-200, 252-256).

Simplifications. The dimensions of the types play no role for splitting and are left out; of the object map only its keys matter. Names are those of atomic
types.
-/

namespace Lambeq
open Diagram
namespace Split

inductive Kind
  | mps | spider
  deriving DecidableEq

structure SplitAnsatz where
  kind : Kind
  maxOrder : Nat
  /-- `uncurry_left` -/
  left : Bool

/-- `MPSAnsatz.BOND_TYPE`, tensor.py:161. -/
def bond : Ob := ⟨"B", 0⟩

/-- The constructors, tensor.py:185-200 and 246-256. `keys` are the keys of the object map. -/
def SplitAnsatz.mk' (kind : Kind) (keys : List String) (maxOrder : Int) (left : Bool) : Except PyErr SplitAnsatz :=
  match kind with
  | .mps =>
    if maxOrder < 3 then .error .valueError
    else if "B" ∈ keys then .error .valueError
    else .ok ⟨.mps, maxOrder.toNat, left⟩
  | .spider => if maxOrder < 2 then .error .valueError else .ok ⟨.spider, maxOrder.toNat, left⟩

/-- `range(0, stop, step)` for a positive step. -/
def pyRange0 (stop step : Nat) : List Nat := (List.range ((stop + step - 1) / step)).map (· * step)

/-- `f'{name}_{i}'` -/
def pieceName (name : String) (i : Nat) : String := name ++ "_" ++ toString i

/-- tensor.py:219: the assignment to `boxes[-1]`. -/
def trimLast (l : List (String × Ty)) : List (String × Ty) :=
  match l.getLast? with
  | none => []
  | some p => l.dropLast ++ [(p.1, pySlice p.2 none (some (-1)))]

/-- tensor.py:218: the assignment to `boxes[0]`. -/
def trimHead : List (String × Ty) → List (String × Ty)
  | [] => []
  | p :: ps => (p.1, pySlice p.2 (some 1) none) :: ps

/-- `Id().tensor(*words)` -/
def wordRow (l : List (String × Ty)) : GDiagram := tensorN (Diagram.id [] :: l.map (fun p => ofBox (.word p.1 p.2 0)))

/-- tensor.py:210-222: `MPSAnsatz._split_ar` on a box without inputs. -/
def mpsWord (m : Nat) (name : String) (cod : Ty) : Except PyErr GDiagram := do
  let step := m - 2
  let boxes : List (String × Ty) := (pyRange0 cod.length step).zipIdx.map fun p =>
    (pieceName name p.2, Ty.r [bond] ++ pySlice cod (some (p.1 : Nat)) (some (p.1 + step : Nat)) ++ [bond])
  let cup ← GDiagram.mkCup [bond] (Ty.r [bond]) false
  let cups : List GDiagram := boxes.flatMap fun p => [Diagram.id (pySlice p.2 (some 1) (some (-1))), cup]
  if boxes = [] then .error .indexError
  else andThen (wordRow (trimLast (trimHead boxes))) (tensorN (Diagram.id [] :: cups.dropLast))

/-- tensor.py:272-273: the diagrams added for one window. -/
def spidersOf : List (String × Ty) → Except PyErr (List GDiagram)
  | [] => .ok []
  | p :: ps => do
    let sp ← GDiagram.mkSpider (pySlice p.2 (some (-1)) none) 2 1
    let rest ← spidersOf ps
    .ok (Diagram.id (pySlice p.2 (some 1) (some (-1))) :: sp :: rest)

/-- tensor.py:274: the assignment to `spiders[-1]`. -/
def plainLast (l : List GDiagram) : List GDiagram :=
  match l.getLast? with
  | none => []
  | some d => l.dropLast ++ [Diagram.id d.cod]

/-- tensor.py:266-277: `SpiderAnsatz._split_ar` on a box without inputs. -/
def spiderWord (m : Nat) (name : String) (cod : Ty) : Except PyErr GDiagram := do
  let step := m - 1
  let boxes : List (String × Ty) := (pyRange0 (cod.length - 1) step).zipIdx.map fun p =>
    (pieceName name p.2, pySlice cod (some (p.1 : Nat)) (some (p.1 + step + 1 : Nat)))
  let spiders ← spidersOf boxes
  andThen (wordRow boxes) (tensorN (Diagram.id [] :: plainLast (Diagram.id (pySlice cod none (some 1)) :: spiders)))

/-- The identity on objects with a given function on boxes: tensor.py:196-200, 252-256. -/
def functorOf (ar : Box → Except PyErr GDiagram) : Functor := ⟨fun s => [⟨s, 0⟩], ar⟩

/-- tensor.py:202-222, 258-277: `_split_ar`, where the recursive call of `split_functor` uses `rec` on boxes. -/
def SplitAnsatz.arWith (A : SplitAnsatz) (rec : Box → Except PyErr GDiagram) (b : Box) : Except PyErr GDiagram :=
  if b.dom.length + b.cod.length ≤ A.maxOrder then .ok (ofBox (.gen (pieceName (Rewrite.boxName b) 0) b.dom b.cod b.z))
  else if b.dom ≠ [] then do
    let d ← Rewrite.collapseRewrite A.left b
    (functorOf rec).onDiagram d
  else match A.kind with
    | .mps => mpsWord A.maxOrder (Rewrite.boxName b) b.cod
    | .spider => spiderWord A.maxOrder (Rewrite.boxName b) b.cod

/-- `_split_ar`. The recursion has depth two, because collapsing removes all inputs; `C54_recursion` shows that nothing is cut off. -/
def SplitAnsatz.ar (A : SplitAnsatz) : Box → Except PyErr GDiagram := A.arWith (A.arWith (fun _ => .error .runtimeError))

/-- `split_functor`, called in tensor.py:153-155. -/
def SplitAnsatz.functor (A : SplitAnsatz) : Functor := functorOf A.ar

end Split
end Lambeq
