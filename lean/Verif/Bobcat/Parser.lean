import Verif.Bobcat.CellProps
import Mathlib.Algebra.Order.Monoid.Defs
import Mathlib.Order.WithBot

/-!
# Bobcat: the chart parser

Models `lambeq/bobcat/parser.py` 166-200 (`Chart`), 223-241 (`ParseResult`), 379-520 (`ChartParser`).

Simplifications. The rules (`combine`, `type_change`, `type_raise`, see `Verif.Bobcat.Rules`) are parameters that give, for trees, the
categories of the new trees, with one more value of an arbitrary type (the rule, the variables); they do not raise and do not look at scores.
So scores may be computed when the trees are made, whereas the code computes them in a later loop. Categories are keys (C47). Scores are in a
linearly ordered commutative monoid, for instance the reals with minus infinity. The words are numbered, `input_supertags` gives categories;
the dictionary of span scores is a function.
-/

namespace Lambeq
namespace Bobcat

/-- A parse tree: its children, its category, what else the rules look at (`info`) and its score, tree.py:228-237. -/
inductive Parse (κ α S : Type)
  | leaf (cat : κ) (info : α) (score : S) (word : Nat)
  | unary (cat : κ) (info : α) (score : S) (left : Parse κ α S)
  | binary (cat : κ) (info : α) (score : S) (left right : Parse κ α S)
  deriving DecidableEq

namespace Parse
variable {κ α S : Type}
def cat : Parse κ α S → κ
  | .leaf c _ _ _ | .unary c _ _ _ | .binary c _ _ _ _ => c
def info : Parse κ α S → α
  | .leaf _ i _ _ | .unary _ i _ _ | .binary _ i _ _ _ => i
def score : Parse κ α S → S
  | .leaf _ _ s _ | .unary _ _ s _ | .binary _ _ s _ _ => s
end Parse

/-- The tree as an entry of a cell. -/
def Parse.entry {κ α S : Type} (t : Parse κ α S) : PTree (Parse κ α S) κ S := ⟨t, t.cat, t.score⟩

/-- The sentence, parser.py:391-404. -/
structure Sent (κ S : Type) where
  length : Nat
  supertags : Nat → List (κ × S)
  spanScores : Nat → Nat → Option (List (Nat × S))

/-- The grammar, the options and the tables, parser.py:314-364. `conjId`, `binaryId`, `unaryId` look up `result_cats`. -/
structure Config (κ α S : Type) where
  combine : Parse κ α S → Parse κ α S → List (κ × α)
  typeChange : Parse κ α S → List (κ × α)
  typeRaise : Parse κ α S → List (κ × α)
  lexical : κ → α
  coordinated : α → Bool
  matchesRoot : κ → Bool
  conjId : κ → Option Nat
  binaryId : κ → Option Nat
  unaryId : List κ → Option Nat
  weigh : S → S
  missingCat : S
  missingSpan : S
  beam : Nat
  maxTrees : Int

section
variable {κ α S : Type} [DecidableEq κ] [DecidableEq α] [LinearOrder S] [AddCommMonoid S]

/-- Looking up a dictionary given as a list of items with different keys. -/
def dictGet (d : List (Nat × S)) (k : Nat) : Option S := (d.find? (fun p => p.1 = k)).map Prod.snd

/-- parser.py:511-520 -/
def spanScore (cfg : Config κ α S) (scores : List (Nat × S)) : Option Nat → S
  | none => cfg.missingCat
  | some id =>
    match dictGet scores id with
    | some s => s
    | none => cfg.missingSpan

/-- parser.py:490-509; the fallback for noun phrases is part of `binaryId`. -/
def scoreBinary (cfg : Config κ α S) (scores : List (Nat × S)) (cat : κ) (info : α) (left right : Parse κ α S) : S :=
  left.score + right.score + spanScore cfg scores (if cfg.coordinated info then cfg.conjId cat else cfg.binaryId cat)

/-- parser.py:475-480: the base of a unary tree over `left`, and the chain of categories below the top. -/
def unaryBase : Parse κ α S → Parse κ α S × List κ
  | .unary c _ _ l => (l, [c, l.cat])
  | t => (t, [t.cat])

/-- parser.py:482-485 -/
def baseScore : Parse κ α S → S
  | .binary _ _ _ l r => l.score + r.score
  | t => t.score

/-- parser.py:469-488 -/
def scoreUnary (cfg : Config κ α S) (scores : List (Nat × S)) (cat : κ) (left : Parse κ α S) : S :=
  baseScore (unaryBase left).1 + spanScore cfg scores (cfg.unaryId (cat :: (unaryBase left).2))

/-- `rules.type_change(results)` or `rules.type_raise(results)`, with the scores. -/
def unaries (cfg : Config κ α S) (scores : List (Nat × S)) (rule : Parse κ α S → List (κ × α)) (trees : List (Parse κ α S)) : List (Parse κ α S) :=
  trees.flatMap (fun t => (rule t).map (fun c => .unary c.1 c.2 (scoreUnary cfg scores c.1 t) t))

/-- parser.py:409-410, 454-455 -/
def withUnaries (cfg : Config κ α S) (scores : List (Nat × S)) (trees : List (Parse κ α S)) : List (Parse κ α S) :=
  let changed := trees ++ unaries cfg scores cfg.typeChange trees
  changed ++ unaries cfg scores cfg.typeRaise changed

/-- parser.py:379-389; with `root_cats = None` everything matches. -/
def filterRoot (cfg : Config κ α S) (trees : List (Parse κ α S)) : List (Parse κ α S) := trees.filter (fun t => cfg.matchesRoot t.cat)

/-- parser.py:166-178 -/
structure Chart (κ α S : Type) where
  cells : Nat → Nat → Option (Cell (Parse κ α S) κ S)
  count : Int

/-- parser.py:183-188; minus infinity is `none`. -/
def Chart.minScore (ch : Chart κ α S) (i j : Nat) : Option S :=
  match ch.cells i j with
  | some c => c.minScore
  | none => none

/-- parser.py:190-200 -/
def Chart.add (b : Nat) (ch : Chart κ α S) (i j : Nat) (trees : List (Parse κ α S)) : Except PyErr (Chart κ α S) :=
  if trees = [] then .ok ch
  else
    match ((ch.cells i j).getD Cell.empty).add b (trees.map Parse.entry) with
    | .error e => .error e
    | .ok (c, n) => .ok ⟨fun i' j' => if i' = i ∧ j' = j then some c else ch.cells i' j', ch.count + n⟩

/-- parser.py:397-404: the leaves of the word `i`, one for every supertag. -/
def wordLeaves (cfg : Config κ α S) (s : Sent κ S) (i : Nat) : List (Parse κ α S) :=
  (s.supertags i).map (fun p => Parse.leaf p.1 (cfg.lexical p.1) (cfg.weigh p.2) i)

/-- parser.py:405-414: the leaves and the unary trees over them. -/
def wordResults (cfg : Config κ α S) (s : Sent κ S) (i : Nat) : List (Parse κ α S) :=
  match s.spanScores i i with
  | none => wordLeaves cfg s i
  | some scores => if 1 < s.length then withUnaries cfg scores (wordLeaves cfg s i) else wordLeaves cfg s i

/-- parser.py:397-418: the trees over the word `i`. -/
def wordTrees (cfg : Config κ α S) (s : Sent κ S) (i : Nat) : List (Parse κ α S) :=
  if s.length = 1 then filterRoot cfg (wordResults cfg s i) else wordResults cfg s i

/-- parser.py:395-419, from word `i`, for `n` words. -/
def addWords (cfg : Config κ α S) (s : Sent κ S) : Nat → Nat → Chart κ α S → Except PyErr (Chart κ α S)
  | 0, _, ch => .ok ch
  | n + 1, i, ch =>
    match ch.add cfg.beam i i (wordTrees cfg s i) with
    | .error e => .error e
    | .ok ch => addWords cfg s n (i + 1) ch

/-- parser.py:451-465: the results of one pair of trees over the span from `i` to `j`. -/
def pairTrees (cfg : Config κ α S) (s : Sent κ S) (scores : List (Nat × S)) (i j : Nat) (left right : Parse κ α S) : List (Parse κ α S) :=
  let base := (cfg.combine left right).map (fun c => Parse.binary c.1 c.2 (scoreBinary cfg scores c.1 c.2 left right) left right)
  let results := if j - i + 1 < s.length then withUnaries cfg scores base else base
  if j - i = s.length - 1 then filterRoot cfg results else results

/-- parser.py:433-435 -/
def maxSpanScore (cfg : Config κ α S) (scores : List (Nat × S)) : S := (scores.map Prod.snd).foldl max (max cfg.missingCat cfg.missingSpan)

/-- parser.py:445-449 -/
def prunable (cfg : Config κ α S) (scores : List (Nat × S)) (ch : Chart κ α S) (i j : Nat) (left right : Parse κ α S) : Bool :=
  match ch.minScore i j with
  | none => false
  | some m => decide (left.score + right.score + maxSpanScore cfg scores < m)

/-- parser.py:444-466: the loop over the right trees; `prune` says whether the test of lines 445-449 is made. -/
def overRight (prune : Bool) (cfg : Config κ α S) (s : Sent κ S) (scores : List (Nat × S)) (i j : Nat) (left : Parse κ α S) :
    List (Parse κ α S) → Chart κ α S → Except PyErr (Chart κ α S)
  | [], ch => .ok ch
  | right :: rs, ch =>
    if prune && prunable cfg scores ch i j left right then .ok ch
    else
      match ch.add cfg.beam i j (pairTrees cfg s scores i j left right) with
      | .error e => .error e
      | .ok ch => overRight prune cfg s scores i j left rs ch

/-- parser.py:443-466 -/
def overLeft (prune : Bool) (cfg : Config κ α S) (s : Sent κ S) (scores : List (Nat × S)) (i j : Nat) (rights : List (Parse κ α S)) :
    List (Parse κ α S) → Chart κ α S → Except PyErr (Chart κ α S)
  | [], ch => .ok ch
  | left :: ls, ch =>
    match overRight prune cfg s scores i j left rights ch with
    | .error e => .error e
    | .ok ch => overLeft prune cfg s scores i j rights ls ch

/-- parser.py:437-466: one split. The trees of the two cells do not change in the loops. -/
def atSplit (prune : Bool) (cfg : Config κ α S) (s : Sent κ S) (scores : List (Nat × S)) (i j k : Nat) (ch : Chart κ α S) : Except PyErr (Chart κ α S) :=
  match ch.cells i (k - 1), ch.cells k j with
  | some l, some r => overLeft prune cfg s scores i j (r.trees.map PTree.id) (l.trees.map PTree.id) ch
  | _, _ => .ok ch

/-- parser.py:436-466: the splits from `k` on, `n` of them. -/
def overSplits (prune : Bool) (cfg : Config κ α S) (s : Sent κ S) (scores : List (Nat × S)) (i j : Nat) :
    Nat → Nat → Chart κ α S → Except PyErr (Chart κ α S)
  | 0, _, ch => .ok ch
  | n + 1, k, ch =>
    match atSplit prune cfg s scores i j k ch with
    | .error e => .error e
    | .ok ch => overSplits prune cfg s scores i j n (k + 1) ch

/-- parser.py:422-466: the spans of one length that end at `j` and later, `n` of them. -/
def overEnds (prune : Bool) (cfg : Config κ α S) (s : Sent κ S) (len : Nat) : Nat → Nat → Chart κ α S → Except PyErr (Chart κ α S)
  | 0, _, ch => .ok ch
  | n + 1, j, ch =>
    if cfg.maxTrees < ch.count then .ok ch
    else
      match s.spanScores (j - len) j with
      | none => overEnds prune cfg s len n (j + 1) ch
      | some scores =>
        match overSplits prune cfg s scores (j - len) j len (j - len + 1) ch with
        | .error e => .error e
        | .ok ch => overEnds prune cfg s len n (j + 1) ch

/-- parser.py:421-466: the lengths from `len` on, `n` of them. -/
def overLengths (prune : Bool) (cfg : Config κ α S) (s : Sent κ S) : Nat → Nat → Chart κ α S → Except PyErr (Chart κ α S)
  | 0, _, ch => .ok ch
  | n + 1, len, ch =>
    match overEnds prune cfg s len (s.length - len) len ch with
    | .error e => .error e
    | .ok ch => overLengths prune cfg s n (len + 1) ch

/-- parser.py:391-467: the chart that is returned. -/
def parseChart (prune : Bool) (cfg : Config κ α S) (s : Sent κ S) : Except PyErr (Chart κ α S) :=
  match addWords cfg s s.length 0 ⟨fun _ _ => none, 0⟩ with
  | .error e => .error e
  | .ok ch => overLengths prune cfg s (s.length - 1) 1 ch

/-- parser.py:228-237: the number of words of the result; the search stops at the first word without a cell (`fuel` bounds it by the
length of the sentence). -/
def countWords (ch : Chart κ α S) : Nat → Nat → Nat
  | 0, n => n
  | fuel + 1, n => if (ch.cells n n).isSome then countWords ch fuel (n + 1) else n

/-- parser.py:227-241: the trees of the result. -/
def resultRoot (ch : Chart κ α S) (s : Sent κ S) : List (Parse κ α S) :=
  match countWords ch s.length 0 with
  | 0 => []
  | n + 1 =>
    match ch.cells 0 n with
    | some c => c.trees.map PTree.id
    | none => []

end
end Bobcat
end Lambeq
