import Verif.Grammar.JsonFrame

/-!
# Decoding by a category, and what decoding does to its argument: the model (C115)

Models `Category.from_json` (`lambeq/backend/grammar.py` 87-121) and, for an argument that is a dictionary, the changes that the methods
`from_json` make to it (368-372, 543-546, 650-668, 1339-1345, 1511-1513, 1640-1642, 1697-1698, 1800-1801, 1893-1895, 1954-1955, 2189-2206, 2276-2281).

Simplifications. The category is `grammar`. A dictionary holds JSON values and objects made from them; the changes to the dictionaries inside it
are left out, as it no longer holds those. A name of an entity that is no string raises `TypeError`. What is made is found by the decoders of `Grammar/Json.lean`.
-/

namespace Lambeq
open Json
set_option linter.unusedSimpArgs false
set_option linter.unusedVariables false

/-- What a category can decode. -/
inductive Entity
  | ty (t : RTy)
  | box (b : FBox)
  | layer (l : FLayer)
  | diagram (d : Comp)

/-- grammar.py:87-121; the classes that are not `Ty`, `Layer` or `Diagram` are those of `FBox.fromJson`. -/
def categoryFromJson (n : Nat) (j : Json) : Except PyErr Entity :=
  match entity j with
  | .error e => .error e
  | .ok e =>
    if e = "Ty" then (RTy.fromJson n j).map .ty
    else if e = "Layer" then (FBox.layerFromJson n j).map .layer
    else if e = "Diagram" then (FBox.diagFromJson n j).map .diagram
    else (FBox.fromJson n j).map .box

/-- A value in a dictionary: JSON, or what a decoder has put there. -/
inductive Held
  | json (j : Json)
  | made

/-- A dictionary, as its items. -/
abbrev PyDict := List (String × Held)

/-- The dictionary of a JSON object. -/
def PyDict.ofFields (fs : List (String × Json)) : PyDict := fs.map (fun kv => (kv.1, .json kv.2))

/-- The JSON object that a dictionary is, if nothing in it has been decoded. -/
def PyDict.toFields : PyDict → Option (List (String × Json))
  | [] => some []
  | (k, .json j) :: d => (PyDict.toFields d).map ((k, j) :: ·)
  | (_, .made) :: _ => none

/-- `d.pop(key, None)`, as for what stays. -/
def PyDict.without (d : PyDict) (key : String) : PyDict := d.filter (fun kv => kv.1 != key)

/-- The fields that the class decodes, in this order. -/
def decodedFields (e : String) : List String :=
  if e = "Ty" then ["objects"]
  else if e = "Layer" then ["left", "box", "right"]
  else if e = "Diagram" then ["dom", "cod", "layers"]
  else if e = "Box" then ["dom", "cod"]
  else if e = "Cap" ∨ e = "Cup" ∨ e = "Swap" then ["left", "right"]
  else if e = "Spider" then ["type"]
  else if e = "Word" then ["cod"]
  else if e = "Frame" then ["dom", "cod", "components"]
  else []

/-- Whether the value of the field `key` can be decoded. -/
def fieldDecodes (n : Nat) (e key : String) (j : Json) : Bool :=
  if key = "objects" then ((asArr j).bind (fun l => l.mapM (RTy.fromJson n))).isOk
  else if key = "box" then (FBox.fromJson n j).isOk
  else if key = "layers" then ((asArr j).bind (fun l => l.mapM (FBox.layerFromJson n))).isOk
  else if key = "components" then ((asArr j).bind (fun l => l.mapM (FBox.compFromJson n))).isOk
  else (RTy.fromJson n j).isOk

/-- The fields are replaced one after another, up to the first that cannot be decoded. -/
def replaceFields (n : Nat) (e : String) : List String → PyDict → PyDict
  | [], d => d
  | k :: ks, d => match d.lookup k with
    | some (.json j) =>
      if fieldDecodes n e k j then replaceFields n e ks (d.map (fun kv => if kv.1 = k then (k, .made) else kv)) else d
    | _ => d

/-- What a class does to the dictionary that it decodes: it takes out the category and the entity, then replaces its fields. The class is that
of the name `e`, whatever entity the dictionary names. -/
def leftBehind (n : Nat) (e : String) (d : PyDict) : PyDict :=
  if (d.lookup "entity").isSome then replaceFields n e (decodedFields e) ((d.without "category").without "entity") else d.without "category"

/-- `Category.from_json(d)`: the result, and the dictionary afterwards. -/
def categoryDecode (n : Nat) (d : PyDict) : Except PyErr Entity × PyDict :=
  match d.lookup "entity" with
  | none => (.error .keyError, d)
  | some .made => (.error .keyError, d)
  | some (.json (.str e)) =>
    if e ∈ ["Cap", "Cup", "Daggered", "Spider", "Swap", "Word", "Frame", "DaggeredFrame", "Ty", "Box", "Layer", "Diagram"] then
      (match d.toFields with
        | some fs => categoryFromJson n (.obj fs)
        | none => .error .attributeError, leftBehind (if e = "Frame" then n - 2 else n - 1) e d)
    else (.error .keyError, d)
  | some (.json _) => (.error .typeError, d)

end Lambeq
