import Verif.Grammar.Frame
import Verif.Grammar.TyProps

/-!
# JSON encoding and decoding

Models the `to_json` / `from_json` methods of `lambeq/backend/grammar.py`: `Ty` (358-398), `Box`
(533-572), `Layer` (640-693), `Diagram` (1329-1370), `Cap` (1508-1526), `Cup` (1637-1656), `Daggered`
(1694-1711), `Spider` (1797-1816), `Swap` (1890-1908), `Word` (1951-1970), `Frame` (2179-2235),
`DaggeredFrame` (2273-2293).

The argument `n : Nat` of the decoders is the remaining recursion depth of the interpreter: a decoder
called with depth 0 raises `RecursionError` (`PyErr.runtimeError`). Simplifications: values are the
`dict`s produced by `to_json`; the text layer (`json.dumps`/`json.loads`) is trusted; a field of the wrong
JSON kind is rejected with `TypeError`; the changes made to the argument are in `JsonCategory.lean`.
-/

namespace Lambeq

/-- JSON values; Python dictionaries are association lists. -/
inductive Json
  | null
  | bool (b : Bool)
  | num (i : Int)
  | str (s : String)
  | arr (l : List Json)
  | obj (fields : List (String × Json))

namespace Json

/-- `data_dict.pop('category', None), data_dict.pop('entity')`, e.g. grammar.py:369. -/
def popEntity : Json → Except PyErr (List (String × Json))
  | obj fs => match fs.lookup "entity" with
    | none => .error .keyError
    | some _ => .ok (fs.filter (fun kv => kv.1 != "category" && kv.1 != "entity"))
  | _ => .error .attributeError

/-- `data_dict[key]` -/
def field (fs : List (String × Json)) (key : String) : Except PyErr Json :=
  match fs.lookup key with
  | some v => .ok v
  | none => .error .keyError

/-- The keyword check of `cls(**data_dict)`. -/
def kwargs (fs : List (String × Json)) (allowed required : List String) : Except PyErr Unit :=
  if (fs.all (fun kv => allowed.contains kv.1)) && (required.all (fun k => (fs.lookup k).isSome)) then .ok ()
  else .error .typeError

def asStr : Json → Except PyErr String | str s => .ok s | _ => .error .typeError
def asNum : Json → Except PyErr Int | num i => .ok i | _ => .error .typeError
def asBool : Json → Except PyErr Bool | bool b => .ok b | _ => .error .typeError
def asArr : Json → Except PyErr (List Json) | arr l => .ok l | _ => .error .typeError
/-- an optional integer keyword with a default -/
def numD (fs : List (String × Json)) (key : String) (d : Int) : Except PyErr Int :=
  match fs.lookup key with | some v => asNum v | none => .ok d
/-- an optional boolean keyword with default `False` -/
def boolD (fs : List (String × Json)) (key : String) : Except PyErr Bool :=
  match fs.lookup key with | some v => asBool v | none => .ok false

/-- `data_dict[k]['entity']`, e.g. grammar.py:664, 2195 -/
def entity : Json → Except PyErr String
  | obj fs => (field fs "entity").bind asStr
  | _ => .error .typeError

/-- `if is_top_level: data_dict['category'] = self.category.name` -/
def cat (top : Bool) : List (String × Json) := if top then [("category", str "grammar")] else []

end Json
open Json

/-! ## Types -/

mutual
/-- grammar.py:376-398 -/
def RTy.toJson (top : Bool) : RTy → Json
  | .mk n os z => .obj ([("entity", .str "Ty"),
      ("name", match n with | some s => .str s | none => .null),
      ("objects", .arr (RTy.allToJson os)), ("z", .num z)] ++ cat top)
/-- the list comprehension of grammar.py:390-391 -/
def RTy.allToJson : List RTy → List Json
  | [] => []
  | t :: ts => RTy.toJson false t :: RTy.allToJson ts
end

/-- grammar.py:358-374, ending in the constructor with its assertions. -/
def RTy.fromJson : Nat → Json → Except PyErr RTy
  | 0, _ => .error .runtimeError
  | n + 1, j => do
    let fs ← popEntity j
    let objs ← (field fs "objects").bind asArr
    let os ← objs.mapM (RTy.fromJson n)
    kwargs fs ["name", "objects", "z"] []
    let z ← numD fs "z" 0
    match fs.lookup "name" with
    | some (.str s) => RTy.make (some s) os z
    | some .null => RTy.make none os z
    | none => RTy.make none os z
    | _ => .error .typeError

/-- `ty.to_json()` on the abstract view of types. -/
def tyToJson (t : Ty) : Json := RTy.toJson false (RTy.ofTy t)
/-- `Ty.from_json(..)` on the abstract view of types. -/
def tyFromJson (n : Nat) (j : Json) : Except PyErr Ty := (RTy.fromJson n j).map RTy.atoms

/-! ## Boxes without frames -/

/-- grammar.py:550-572, 1516-1526, 1646-1656, 1702-1711, 1805-1816, 1899-1908, 1959-1970 -/
def Box.toJson (top : Bool) : Box → Json
  | .gen n d c z => .obj ([("entity", .str "Box"), ("name", .str n), ("dom", tyToJson d),
      ("cod", tyToJson c), ("z", .num z)] ++ cat top)
  | .word n c z => .obj ([("entity", .str "Word"), ("name", .str n), ("cod", tyToJson c), ("z", .num z)] ++ cat top)
  | .cup l r rev => .obj ([("entity", .str "Cup"), ("is_reversed", .bool rev),
      ("left", tyToJson [l]), ("right", tyToJson [r])] ++ cat top)
  | .cap l r rev => .obj ([("entity", .str "Cap"), ("is_reversed", .bool rev),
      ("left", tyToJson [l]), ("right", tyToJson [r])] ++ cat top)
  | .swap l r => .obj ([("entity", .str "Swap"), ("left", tyToJson [l]), ("right", tyToJson [r])] ++ cat top)
  | .spider t i o => .obj ([("entity", .str "Spider"), ("type", tyToJson [t]),
      ("n_legs_in", .num i), ("n_legs_out", .num o)] ++ cat top)
  | .daggered b => .obj ([("entity", .str "Daggered"), ("box", Box.toJson false b)] ++ cat top)

namespace Box

/-- grammar.py:533-548 `Box.from_json` -/
def genFromJson (n : Nat) (j : Json) : Except PyErr Box := do
  let fs ← popEntity j
  let d ← (field fs "dom").bind (tyFromJson n)
  let c ← (field fs "cod").bind (tyFromJson n)
  kwargs fs ["name", "dom", "cod", "z"] ["name"]
  let nm ← (field fs "name").bind asStr
  let z ← numD fs "z" 0
  .ok (.gen nm d c z)

/-- grammar.py:1951-1957 `Word.from_json` -/
def wordFromJson (n : Nat) (j : Json) : Except PyErr Box := do
  let fs ← popEntity j
  let c ← (field fs "cod").bind (tyFromJson n)
  kwargs fs ["name", "cod", "z"] ["name"]
  let nm ← (field fs "name").bind asStr
  let z ← numD fs "z" 0
  .ok (.word nm c z)

/-- grammar.py:1637-1644 `Cup.from_json`. With compound types the constructor would return a diagram;
this does not arise from `to_json` and is left out. -/
def cupFromJson (n : Nat) (j : Json) : Except PyErr Box := do
  let fs ← popEntity j
  let l ← (field fs "left").bind (tyFromJson n)
  let r ← (field fs "right").bind (tyFromJson n)
  kwargs fs ["left", "right", "is_reversed"] []
  let rev ← boolD fs "is_reversed"
  match l, r with
  | [l], [r] => atomicCup l r rev
  | _, _ => .error .notImplementedError

/-- grammar.py:1508-1514 `Cap.from_json`, likewise. -/
def capFromJson (n : Nat) (j : Json) : Except PyErr Box := do
  let fs ← popEntity j
  let l ← (field fs "left").bind (tyFromJson n)
  let r ← (field fs "right").bind (tyFromJson n)
  kwargs fs ["left", "right", "is_reversed"] []
  let rev ← boolD fs "is_reversed"
  match l, r with
  | [l], [r] => atomicCap l r rev
  | _, _ => .error .notImplementedError

/-- grammar.py:1890-1897 `Swap.from_json`, likewise. -/
def swapFromJson (n : Nat) (j : Json) : Except PyErr Box := do
  let fs ← popEntity j
  let l ← (field fs "left").bind (tyFromJson n)
  let r ← (field fs "right").bind (tyFromJson n)
  kwargs fs ["left", "right"] []
  match l, r with
  | [l], [r] => .ok (.swap l r)
  | _, _ => .error .notImplementedError

/-- grammar.py:1797-1803 `Spider.from_json`, likewise. -/
def spiderFromJson (n : Nat) (j : Json) : Except PyErr Box := do
  let fs ← popEntity j
  let t ← (field fs "type").bind (tyFromJson n)
  kwargs fs ["type", "n_legs_in", "n_legs_out"] ["n_legs_in", "n_legs_out"]
  let i ← (field fs "n_legs_in").bind asNum
  let o ← (field fs "n_legs_out").bind asNum
  match t with
  | [t] => if i < 0 ∨ o < 0 then .error .assertionError else .ok (.spider t i.toNat o.toNat)
  | _ => .error .notImplementedError

/-- grammar.py:1694-1700 `Daggered.from_json`: the inner box is always decoded by `Box.from_json`. -/
def daggeredFromJson (n : Nat) (j : Json) : Except PyErr Box := do
  let fs ← popEntity j
  let b ← (field fs "box").bind (genFromJson n)
  .ok b.dagger

end Box

/-! ## Frames, layers and diagrams -/

namespace FBox

mutual
/-- `box.to_json()`; frames: grammar.py:2211-2235, 2284-2293 -/
def toJson (top : Bool) : FBox → Json
  | base b => b.toJson top
  | frame n d c cs z => .obj ([("entity", .str "Frame"), ("name", .str n), ("dom", tyToJson d),
      ("cod", tyToJson c), ("z", .num z), ("components", .arr (compsToJson cs))] ++ cat top)
  | daggeredFrame f => .obj ([("entity", .str "DaggeredFrame"), ("frame", toJson false f)] ++ cat top)
/-- grammar.py:672-693 -/
def layerToJson (top : Bool) : FLayer → Json
  | .mk l b r => .obj ([("entity", .str "Layer"), ("left", tyToJson l), ("right", tyToJson r),
      ("box", toJson false b)] ++ cat top)
/-- a component: grammar.py:1349-1370 for diagrams -/
def compToJson (top : Bool) : Comp → Json
  | .box b => toJson top b
  | .diag d c ls => .obj ([("entity", .str "Diagram"), ("dom", tyToJson d), ("cod", tyToJson c),
      ("layers", .arr (layersToJson ls))] ++ cat top)
/-- grammar.py:2228-2229 -/
def compsToJson : List Comp → List Json
  | [] => []
  | c :: cs => compToJson false c :: compsToJson cs
/-- grammar.py:1364-1365 -/
def layersToJson : List FLayer → List Json
  | [] => []
  | l :: ls => layerToJson false l :: layersToJson ls
end

mutual
/-- grammar.py:653-667, the box of a layer: dispatch on the entity name. -/
def fromJson : Nat → Json → Except PyErr FBox
  | 0, _ => .error .runtimeError
  | n + 1, j => do
    let e ← entity j
    if e = "Cap" then (Box.capFromJson n j).map base
    else if e = "Cup" then (Box.cupFromJson n j).map base
    else if e = "Daggered" then (Box.daggeredFromJson n j).map base
    else if e = "Spider" then (Box.spiderFromJson n j).map base
    else if e = "Swap" then (Box.swapFromJson n j).map base
    else if e = "Word" then (Box.wordFromJson n j).map base
    else if e = "Frame" then frameFromJson n j
    else if e = "DaggeredFrame" then daggeredFrameFromJson n j
    else if e = "Box" then (Box.genFromJson n j).map base
    else .error .keyError
/-- grammar.py:2179-2209 `Frame.from_json` -/
def frameFromJson : Nat → Json → Except PyErr FBox
  | 0, _ => .error .runtimeError
  | n + 1, j => do
    let fs ← popEntity j
    let d ← (field fs "dom").bind (tyFromJson n)
    let c ← (field fs "cod").bind (tyFromJson n)
    let cj ← (field fs "components").bind asArr
    let cs ← cj.mapM (compFromJson n)
    kwargs fs ["name", "dom", "cod", "components", "z"] ["name"]
    let nm ← (field fs "name").bind asStr
    let z ← numD fs "z" 0
    .ok (frame nm d c cs z)
/-- grammar.py:2273-2282 `DaggeredFrame.from_json` -/
def daggeredFrameFromJson : Nat → Json → Except PyErr FBox
  | 0, _ => .error .runtimeError
  | n + 1, j => do
    let fs ← popEntity j
    let fj ← field fs "frame"
    let f ← frameFromJson n fj
    .ok f.dagger
/-- grammar.py:2194-2205, one component: a diagram, or a class registered in `special_boxes` under the
lower-cased entity name (`cap`, `cup`, `spider`, `swap`, `frame`). -/
def compFromJson : Nat → Json → Except PyErr Comp
  | 0, _ => .error .runtimeError
  | n + 1, j => do
    let e ← entity j
    if e = "Diagram" then diagFromJson n j
    else if e.toLower = "cap" then (Box.capFromJson n j).map (fun b => .box (base b))
    else if e.toLower = "cup" then (Box.cupFromJson n j).map (fun b => .box (base b))
    else if e.toLower = "spider" then (Box.spiderFromJson n j).map (fun b => .box (base b))
    else if e.toLower = "swap" then (Box.swapFromJson n j).map (fun b => .box (base b))
    else if e.toLower = "frame" then (frameFromJson n j).map .box
    else .error .keyError
/-- grammar.py:1329-1347 `Diagram.from_json` -/
def diagFromJson : Nat → Json → Except PyErr Comp
  | 0, _ => .error .runtimeError
  | n + 1, j => do
    let fs ← popEntity j
    let d ← (field fs "dom").bind (tyFromJson n)
    let c ← (field fs "cod").bind (tyFromJson n)
    let lj ← (field fs "layers").bind asArr
    let ls ← lj.mapM (layerFromJson n)
    kwargs fs ["dom", "cod", "layers"] []
    .ok (.diag d c ls)
/-- grammar.py:640-670 `Layer.from_json` -/
def layerFromJson : Nat → Json → Except PyErr FLayer
  | 0, _ => .error .runtimeError
  | n + 1, j => do
    let fs ← popEntity j
    let l ← (field fs "left").bind (tyFromJson n)
    let b ← (field fs "box").bind (fromJson n)
    let r ← (field fs "right").bind (tyFromJson n)
    kwargs fs ["left", "box", "right"] []
    .ok (.mk l b r)
end

end FBox
end Lambeq
