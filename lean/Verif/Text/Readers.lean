import Verif.Ccg.Tree

/-!
# Readers

Models `lambeq/text2diagram/linear_reader.py`, `spiders_reader.py`, `tree_reader.py` and
`lambeq/core/utils.py` (the sentence type checks they use).
-/

namespace Lambeq
open Diagram GDiagram
namespace Reader

/-- What a caller may pass as a sentence: a string, a list of strings, or anything else. -/
inductive Sentence
  | str (s : List Char)
  | tokens (ws : List String)
  | other

/-- `str.split()` (whitespace-separated, no empty tokens).  `ws` says which characters are whitespace
(Python: `str.isspace`); `cur` is the token being read. -/
def splitAux (ws : Char → Bool) : List Char → List Char → List String
  | [], cur => if cur.isEmpty then [] else [String.ofList cur]
  | c :: cs, cur =>
    if ws c then (if cur.isEmpty then splitAux ws cs [] else String.ofList cur :: splitAux ws cs [])
    else splitAux ws cs (cur ++ [c])

/-- linear_reader.py:81-90 = spiders_reader.py:31-39, with core/utils.py:60-64 -/
def tokensOf (ws : Char → Bool) (s : Sentence) (tokenised : Bool) : Except PyErr (List String) :=
  match s, tokenised with
  | .tokens ws, true => .ok ws
  | .str cs, false => .ok (splitAux ws cs [])
  | _, _ => .error .valueError

/-- One iteration of the loop of linear_reader.py:93-95. -/
def combineStep (comb d : GDiagram) : Except PyErr GDiagram :=
  andThen d (tensor comb (Diagram.id (pySlice d.cod (some (comb.dom.length : Int)) none)))

/-- The `while` loop of linear_reader.py:93-95, run for at most `fuel` iterations; `none` means that the
loop is still running then. -/
def combineLoop (comb : GDiagram) : Nat → GDiagram → Option (Except PyErr GDiagram)
  | fuel, d =>
    if d.cod.length > 1 then
      match fuel with
      | 0 => none
      | fuel + 1 =>
        match combineStep comb d with
        | .ok d' => combineLoop comb fuel d'
        | .error e => some (.error e)
    else some (.ok d)

/-- linear_reader.py:91-96 (`LinearReader.sentence2diagram` on tokens) -/
def linear (comb : GDiagram) (wordType : Ty) (start : GDiagram) (fuel : Nat) (tokens : List String) :
    Option (Except PyErr GDiagram) :=
  combineLoop comb fuel (tensorN (start :: tokens.map (fun w => ofBox (.word w wordType 0))))

/-- `AtomicType.SENTENCE` (core/types.py:36) -/
def S : Ob := ⟨"s", 0⟩
/-- `S.r` -/
def Sr : Ob := ⟨"s", 1⟩

/-- linear_reader.py:99-101 -/
def cupsReader (fuel : Nat) (tokens : List String) : Option (Except PyErr GDiagram) :=
  linear (ofBox (.cup S Sr false)) [Sr, S] (ofBox (.word "START" [S] 0)) fuel tokens

/-- linear_reader.py:102 -/
def stairsReader (fuel : Nat) (tokens : List String) : Option (Except PyErr GDiagram) :=
  linear (ofBox (.gen "STAIR" [S, S] [S] 0)) [S] (Diagram.id []) fuel tokens

/-- spiders_reader.py:41-44 -/
def spidersReader (tokens : List String) : Except PyErr GDiagram := do
  let sp ← mkSpider [S] tokens.length 1
  andThen (tensorN (Diagram.id [] :: tokens.map (fun w => ofBox (.word w [S] 0)))) sp

/-- tree_reader.py:63-66 -/
inductive Mode | noType | ruleOnly | ruleType | height
  deriving DecidableEq, Repr

/-- ccg_rule.py:42-59: the enumeration values. -/
def ruleValue : Rule → String
  | .unknown => "UNK" | .lexical => "L" | .unary => "U" | .fa => "FA" | .ba => "BA" | .fc => "FC"
  | .bc => "BC" | .fx => "FX" | .bx => "BX" | .gfc => "GFC" | .gbc => "GBC" | .gfx => "GFX"
  | .gbx => "GBX" | .lp => "LP" | .rp => "RP" | .ftr => "FTR" | .btr => "BTR" | .conj => "CONJ"

/-- ccg_tree.py:91-94 -/
def height : Tree → Nat
  | .leaf _ _ => 0
  | .un _ _ c => 1 + height c
  | .bin _ _ l r => 1 + max (height l) (height r)

/-- tree_reader.py:164-174; `types` are the children's categories. -/
def boxName (mode : Mode) (rule : Rule) (types : List Cat) (h : Nat) : String :=
  match mode with
  | .noType => "UNIBOX"
  | .height => "layer_" ++ toString h
  | .ruleOnly => ruleValue rule
  | .ruleType =>
    ruleValue rule ++ "(" ++ String.intercalate ", " (types.map (fun c => String.ofList c.toStr)) ++ ")"

/-- tree_reader.py:154-178 (`word_type ** n` is the `n`-fold tensor product) -/
def treeAux (mode : Mode) (w : Ty) : Tree → Except PyErr GDiagram
  | .leaf text _ => .ok (ofBox (.word text w 0))
  | .un rule t c => do
    let d ← treeAux mode w c
    andThen (tensorN [Diagram.id [], d])
      (ofBox (.gen (boxName mode rule [c.ty] (height (.un rule t c))) w w 0))
  | .bin rule t l r => do
    let dl ← treeAux mode w l
    let dr ← treeAux mode w r
    andThen (tensorN [Diagram.id [], dl, dr])
      (ofBox (.gen (boxName mode rule [l.ty, r.ty] (height (.bin rule t l r))) (w ++ w) w 0))

/-- tree_reader.py:113-152; the value `none` is Python's `None`. -/
def tree2diagram (t : Tree) (mode : Mode) (w : Ty) (suppress : Bool) : Except PyErr (Option GDiagram) :=
  match (do let t' ← t.resolved t.ty; treeAux mode w t') with
  | .ok d => .ok (some d)
  | .error e => if suppress then .ok none else .error e

end Reader
end Lambeq
