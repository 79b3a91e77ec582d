import Verif.Ccg.JsonTree
import Verif.Ccg.Rule

/-!
# Trees from depccg (C110)

Models `lambeq/text2diagram/depccg_parser.py`: `_to_biclosed` (429-451), `_build_ccgtree` (453-476).

`depccg.cat.Category` and `depccg.tree.Tree` are modelled by the attributes that are read: a category is atomic, with a base and a feature, or a functor with a slash; a tree has a category, and a word or
`op_string`, `op_symbol` and children. `tree.word` of an inner node is that of its leaves, joined by blanks, as depccg defines it. Left out: `metadata`.
-/

namespace Lambeq
namespace Depccg

/-- `depccg.cat.Category` -/
inductive DCat
  | atomic (base : String) (feature : String)
  | functor (left : DCat) (slash : Char) (right : DCat)
  deriving DecidableEq

/-- `depccg.tree.Tree` -/
inductive DTree
  | leaf (cat : DCat) (word : String)
  | node (cat : DCat) (opString opSymbol : String) (children : List DTree)

/-- `w in s` for strings. -/
def inStr (w : List Char) : List Char → Bool
  | [] => w.isEmpty
  | c :: s => w.isPrefixOf (c :: s) || inStr w s

/-- depccg_parser.py:433-446; `Exception` is called `runtimeError`. -/
def atomType (base : String) : Except PyErr Cat :=
  if base = "N" then .ok Cat.NOUN
  else if base = "NP" then .ok Cat.NP
  else if base = "S" then .ok (.atom "s")
  else if base = "PP" then .ok (.atom "p")
  else if base = "conj" then .ok Cat.CONJ
  else if base = "LRB" ∨ base = "RRB" ∨ inStr base.toList [',', '.', ':', ';'] = true then .ok Cat.PUNC
  else .error .runtimeError

/-- depccg_parser.py:429-451; a slash that is neither `/` nor `\` fails an assertion of `CCGType` (ccg_type.py:116-117). -/
def toBiclosed : DCat → Except PyErr Cat
  | .atomic base _ => atomType base
  | .functor l s r => match toBiclosed l with
    | .error e => .error e
    | .ok x => match toBiclosed r with
      | .error e => .error e
      | .ok y => if s = '/' then .ok (.over x y) else if s = '\\' then .ok (.under x y) else .error .assertionError

/-- depccg_parser.py:461-471 and `CCGRule(rule)`. `upper` is `str.upper`. -/
def ruleOf (upper : String → String) (op sym : String) (ty : Cat) (tys : List Cat) : Except PyErr Rule :=
  if op = "tr" then match ty.dir? with
    | none => .error .attributeError
    | some d => if d = '/' then .ok .ftr else .ok .btr
  else if sym = "<un>" then .ok .unary
  else if op = "gbx" ∨ op = "gfc" then Rule.inferRule tys ty
  else .ok (Rule.ofValue (upper op))

mutual
/-- `tree.word` -/
def word : DTree → String
  | .leaf _ w => w
  | .node _ _ _ cs => " ".intercalate (words cs)
def words : List DTree → List String
  | [] => []
  | c :: cs => word c :: words cs
end

mutual
/-- depccg_parser.py:453-476 -/
def build (upper : String → String) : DTree → Except PyErr CTree
  | .leaf c w => match toBiclosed c with
    | .error e => .error e
    | .ok ty => CTree.mk (some w) .lexical ty []
  | .node c op sym cs => match toBiclosed c with
    | .error e => .error e
    | .ok ty => match builds upper cs with
      | .error e => .error e
      | .ok ts => match ruleOf upper op sym ty (ts.map CTree.ty) with
        | .error e => .error e
        | .ok r => CTree.mk (some (word (.node c op sym cs))) r ty ts
/-- `[*map(DepCCGParser._build_ccgtree, tree.children)]` -/
def builds (upper : String → String) : List DTree → Except PyErr (List CTree)
  | [] => .ok []
  | c :: cs => match build upper c with
    | .error e => .error e
    | .ok t => match builds upper cs with
      | .error e => .error e
      | .ok ts => .ok (t :: ts)
end

end Depccg
end Lambeq
