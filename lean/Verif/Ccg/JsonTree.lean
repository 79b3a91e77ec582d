import Verif.Ccg.CatProps
import Verif.Ccg.Rule
import Verif.Grammar.Json

/-!
# CCG trees as Python objects: constructor, text, JSON, trivial unary rules (C85)

Models `CCGTree.__init__` (text2diagram/ccg_tree.py:41-94), `text` (96-101), `from_json` (133-163), `without_trivial_unary_rules` (165-185), `to_json`
(187-199) and `__eq__` (201-208), and the values of `CCGRule` (ccg_rule.py:42-59, 75-77).

Simplifications: `metadata` is left out (neither `to_json` nor `__eq__` looks at it); `children` is a list (for another iterable `text and not children` can
differ); the text layer `json.dumps`/`json.loads` is trusted; `text` in a JSON object is a string or `null`. The property `text` stores the text it computes in
`_text`: here the stored text is a field, a tree whose text has been read is one with the field set.
-/

namespace Lambeq
open Json
set_option linter.unusedSimpArgs false

/-- ccg_rule.py:42-59: the values of the enumeration. -/
def Rule.value : Rule → String
  | .unknown => "UNK" | .lexical => "L" | .unary => "U" | .fa => "FA" | .ba => "BA" | .fc => "FC" | .bc => "BC" | .fx => "FX" | .bx => "BX"
  | .gfc => "GFC" | .gbc => "GBC" | .gfx => "GFX" | .gbx => "GBX" | .lp => "LP" | .rp => "RP" | .ftr => "FTR" | .btr => "BTR" | .conj => "CONJ"

/-- ccg_rule.py:42-59, in the order of their definition. -/
def Rule.all : List Rule := [.unknown, .lexical, .unary, .fa, .ba, .fc, .bc, .fx, .bx, .gfc, .gbc, .gfx, .gbx, .lp, .rp, .ftr, .btr, .conj]

/-- `CCGRule(value)`, with `_missing_` (ccg_rule.py:75-77). -/
def Rule.ofValue (s : String) : Rule := (Rule.all.find? (fun r => r.value == s)).getD .unknown

/-- A `CCGTree` object: `_text`, `rule`, `biclosed_type`, `height`, `children`. -/
inductive CTree
  | node (text : Option String) (rule : Rule) (ty : Cat) (height : Nat) (children : List CTree)

namespace CTree

def rule : CTree → Rule | node _ r _ _ _ => r
def ty : CTree → Cat | node _ _ t _ _ => t
/-- the attribute `height`, which is set by the constructor only -/
def height : CTree → Nat | node _ _ _ h _ => h
def children : CTree → List CTree | node _ _ _ _ cs => cs

/-- ccg_tree.py:74-78 -/
def required : Rule → Nat
  | .lexical => 0
  | .unary | .ftr | .btr => 1
  | _ => 2

/-- ccg_tree.py:91-94: `1 + max(...)`, 0 without children. -/
def heightOf : List CTree → Nat
  | [] => 0
  | c :: cs => 1 + (cs.map height).foldl max c.height

/-- truth value of an optional string -/
def truthy : Option String → Bool
  | none => false
  | some s => s != ""

/-- ccg_tree.py:41-94 -/
def mk (text : Option String) (rule : Rule) (ty : Cat) (children : List CTree) : Except PyErr CTree :=
  if rule ≠ .unknown ∧ children.length ≠ required rule then .error .valueError
  else .ok (node text (if truthy text && children.isEmpty then .lexical else rule) ty (heightOf children) children)

mutual
/-- ccg_tree.py:96-101 -/
def text : CTree → String
  | node (some s) _ _ _ _ => s
  | node none _ _ _ cs => " ".intercalate (texts cs)
def texts : List CTree → List String
  | [] => []
  | c :: cs => c.text :: texts cs
end

mutual
/-- ccg_tree.py:187-199 -/
def toJson : CTree → Json
  | node tx r ty h cs =>
    obj ([("type", str (String.ofList ty.toStr))]
      ++ (if r ≠ .unknown then [("rule", str r.value)] else [])
      ++ (if (node tx r ty h cs).text ≠ " ".intercalate (texts cs) then [("text", str (node tx r ty h cs).text)] else [])
      ++ (if cs ≠ [] then [("children", arr (toJsons cs))] else []))
def toJsons : List CTree → List Json
  | [] => []
  | c :: cs => c.toJson :: toJsons cs
end

/-- `data_dict.get('text')` -/
def getText (fs : List (String × Json)) : Except PyErr (Option String) :=
  match fs.lookup "text" with
  | none => .ok none
  | some null => .ok none
  | some (str s) => .ok (some s)
  | some _ => .error .typeError

/-- `CCGRule(data_dict.get('rule', CCGRule.UNKNOWN))`: every value that is not a name of a rule gives `UNKNOWN`. -/
def getRule (fs : List (String × Json)) : Rule :=
  match fs.lookup "rule" with
  | some (str s) => Rule.ofValue s
  | _ => .unknown

/-- `data_dict.get('children', [])`, iterated: a `null` cannot be iterated over. -/
def getChildren (fs : List (String × Json)) : Except PyErr (List Json) :=
  match fs.lookup "children" with
  | none => .ok []
  | some (arr l) => .ok l
  | some _ => .error .typeError

/-- `CCGType.parse(data_dict['type'])` -/
def getType (fs : List (String × Json)) : Except PyErr Cat :=
  match fs.lookup "type" with
  | none => .error .keyError
  | some (str s) => Cat.parse _root_.id s.toList
  | some _ => .error .typeError

/-- `__init__` when a child can be `None`: the attribute `height` of `None` is missing (ccg_tree.py:94). -/
def mkOpt (text : Option String) (rule : Rule) (ty : Cat) (children : List (Option CTree)) : Except PyErr CTree :=
  match children.mapM _root_.id with
  | some cs => mk text rule ty cs
  | none => if rule ≠ .unknown ∧ children.length ≠ required rule then .error .valueError else .error .attributeError

/-- ccg_tree.py:133-163; `n` is the recursion depth that is left. -/
def fromJson : Nat → Json → Except PyErr (Option CTree)
  | _, null => .ok none
  | 0, _ => .error .runtimeError
  | n + 1, obj fs =>
    match getText fs with
    | .error e => .error e
    | .ok tx => match getType fs with
      | .error e => .error e
      | .ok ty => match getChildren fs with
        | .error e => .error e
        | .ok js => match js.mapM (fromJson n) with
          | .error e => .error e
          | .ok cs => match mkOpt tx (getRule fs) ty cs with
            | .error e => .error e
            | .ok t => .ok (some t)
  | _ + 1, _ => .error .attributeError

/-- ccg_tree.py:180-181: the condition of the loop. -/
def trivial : CTree → Bool
  | node _ r ty _ [c] => r == .unary && decide (ty = c.ty)
  | _ => false

mutual
/-- ccg_tree.py:165-185. (A tree with the rule `UNARY` has one child, see `C85_built_children`.) The attributes of the tree that is returned, `_text` and
`height` among them, are those of the old object. -/
def withoutTrivial : CTree → CTree
  | node tx r ty h [c] =>
    if r == .unary && decide (ty = c.ty) then c.withoutTrivial else node tx r ty h [c.withoutTrivial]
  | node tx r ty h cs => node tx r ty h (withoutTrivials cs)
def withoutTrivials : List CTree → List CTree
  | [] => []
  | c :: cs => c.withoutTrivial :: withoutTrivials cs
end

mutual
/-- ccg_tree.py:201-208 -/
def beq : CTree → CTree → Bool
  | node tx r ty h cs, node tx' r' ty' h' cs' =>
    (node tx r ty h cs).text == (node tx' r' ty' h' cs').text && r == r' && decide (ty = ty') && cs.length == cs'.length && beqs cs cs'
def beqs : List CTree → List CTree → Bool
  | c :: cs, d :: ds => c.beq d && beqs cs ds
  | _, _ => true
end

end CTree
end Lambeq
