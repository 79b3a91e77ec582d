import Verif.Ccg.JsonTreeTheorems

/-!
# Reading CCGBank (C94)

Models `CCGBankParser` (text2diagram/ccgbank_parser.py): the regular expressions (71-96), `section2trees_gen` (154-222), `sentences2trees` (327-387), `_build_ccgtree` (389-427) and
`_map_atomic_type` (429-445).

Simplifications: strings are lists of characters and positions are remainders of the string. White space is what `Char.isWhitespace` says, `\d` is an ASCII digit. The recursion of
`_build_ccgtree` is bounded by a number that it cannot reach. Where `_map_atomic_type` raises, so does `CCGType.parse`, if not before: the model puts in a name that no category has, and
raises afterwards. `metadata`, messages and the check of `verbose` are left out. A file is the list of its lines.
-/

namespace Lambeq
namespace Bank
set_option linter.unusedSimpArgs false

/-! ## Categories -/

/-- ccgbank_parser.py:72: `(\[[a-z]+])?` -/
def isFeature (s : List Char) : Bool :=
  match s with
  | [] => true
  | '[' :: t => t.getLast? == some ']' && t.dropLast != [] && t.dropLast.all (fun c => decide ('a' ≤ c ∧ c ≤ 'z'))
  | _ => false

/-- ccgbank_parser.py:72: the group `bare_cat`. -/
def bareCat (s : List Char) : Option (List Char) :=
  [['N'], ['N', 'P'], ['S'], ['P', 'P']].find? (fun b => b.isPrefixOf s && isFeature (s.drop b.length))

/-- ccgbank_parser.py:430-445; `none` where it raises. -/
def mapAtomic (s : List Char) : Option String :=
  match bareCat s with
  | some b => some (if b = ['N'] then "n" else if b = ['N', 'P'] then "np" else if b = ['S'] then "s" else "p")
  | none =>
    if s = ['c', 'o', 'n', 'j'] then some "conj"
    else if s = ['L', 'R', 'B'] ∨ s = ['R', 'R', 'B'] ∨ s = [','] ∨ s = ['.'] ∨ s = [':'] ∨ s = [';'] then some "punc" else none

/-- A name in place of an exception. -/
def noName : String := "?"

def bankName (s : String) : String := (mapAtomic s.toList).getD noName

/-- The atomic names of a category. -/
def atoms : Cat → List String
  | .empty => []
  | .atom n => [n]
  | .over x y => atoms x ++ atoms y
  | .under x y => atoms x ++ atoms y

/-- ccgbank_parser.py:397-398 -/
def fixCat (s : List Char) : List Char := if s = "((S[b]\\NP)/NP)/".toList then "(S[b]\\NP)/NP".toList else s

/-- ccgbank_parser.py:396-402 -/
def bankType (s : List Char) : Except PyErr Cat :=
  match Cat.parse bankName (fixCat s) with
  | .error e => .error e
  | .ok t => if noName ∈ atoms t then .error .parseError else .ok t

/-! ## Nodes -/

def space (c : Char) : Bool := c.isWhitespace

/-- `\s+` -/
def spaces (s : List Char) : Option (List Char) := match s with
  | [] => none
  | c :: t => if space c then some (t.dropWhile space) else none

/-- `(\S+) \s+` -/
def field (s : List Char) : Option (List Char × List Char) :=
  let f := s.takeWhile (fun c => !space c)
  if f = [] then none else (spaces (s.dropWhile (fun c => !space c))).map (fun r => (f, r))

/-- The last occurrence of `>)`: what is before it and what is after it. -/
def lastClose : List Char → Option (List Char × List Char)
  | [] => none
  | c :: cs => match lastClose cs with
    | some (p, q) => some (c :: p, q)
    | none => if c = '>' ∧ cs.head? = some ')' then some ([], cs.tail) else none

/-- `(\S+) > \) \s*`: the field is as long as possible. -/
def lastField (s : List Char) : Option (List Char) :=
  match lastClose (s.takeWhile (fun c => !space c)) with
  | none => none
  | some (p, q) => if p = [] then none else some ((q ++ s.dropWhile (fun c => !space c)).dropWhile space)

/-- What a match of `tree_regex` gives: `ccg_str`, and `word` if it is a leaf. -/
structure Head where
  cat : List Char
  word : Option (List Char)

/-- ccgbank_parser.py:82-86, 91-92 -/
def leafFields (s : List Char) : Option (List Char × List Char) :=
  match field s with
  | none => none
  | some (_, s1) => match field s1 with
    | none => none
    | some (_, s2) => match field s2 with
      | none => none
      | some (w, s3) => (lastField s3).map (fun r => (w, r))

/-- ccgbank_parser.py:89-92 -/
def countField (s : List Char) : Option (List Char) :=
  match s.dropWhile Char.isDigit with
  | '>' :: r => if s.takeWhile Char.isDigit = [] then none else some (r.dropWhile space)
  | _ => none

/-- ccgbank_parser.py:88-92 -/
def innerFields (s : List Char) : Option (List Char) :=
  match s with
  | [] => none
  | c :: t => if c = '0' ∨ c = '1' then (match spaces t with | none => none | some r => countField r) else none

/-- ccgbank_parser.py:80-92: what follows `(<` and the letter. -/
def headOf (leaf : Bool) (s : List Char) : Option (Head × List Char) :=
  match spaces s with
  | none => none
  | some s1 => match field s1 with
    | none => none
    | some (cat, s2) =>
      if leaf then (leafFields s2).map (fun p => (⟨cat, some p.1⟩, p.2))
      else (innerFields s2).map (fun r => (⟨cat, none⟩, r))

/-- ccgbank_parser.py:78-94, 391: `tree_regex.match` -/
def matchNode (s : List Char) : Option (Head × List Char) :=
  match s with
  | '(' :: '<' :: 'L' :: t => headOf true t
  | '(' :: '<' :: 'T' :: t => headOf false t
  | _ => none

/-- ccgbank_parser.py:96, 405-409 -/
def unescape (w : List Char) : String :=
  if w = "-LCB-".toList then "{" else if w = "-RCB-".toList then "}" else if w = "-LRB-".toList then "(" else if w = "-RRB-".toList then ")" else String.ofList w

/-- ccgbank_parser.py:419-426 -/
def finish (ty : Cat) (cs : List CTree) (rest : List Char) : Except PyErr (CTree × List Char) :=
  match Rule.inferRule (cs.map CTree.ty) ty with
  | .error e => .error e
  | .ok r => match CTree.mk none r ty cs with
    | .error e => .error e
    | .ok t => .ok (t, rest.drop 2)

mutual
/-- ccgbank_parser.py:389-427; the first argument bounds the recursion. -/
def build : Nat → List Char → Except PyErr (CTree × List Char)
  | 0, _ => .error .runtimeError
  | n + 1, s => match matchNode s with
    | none => .error .parseError
    | some (m, rest) => match bankType m.cat with
      | .error e => .error e
      | .ok ty => match m.word with
        | some w => match CTree.mk (some (unescape w)) .unknown ty [] with
          | .error e => .error e
          | .ok t => .ok (t, rest)
        | none => match buildKids n rest with
          | .error e => .error e
          | .ok (cs, rest') => finish ty cs rest'
/-- ccgbank_parser.py:414-417 -/
def buildKids : Nat → List Char → Except PyErr (List CTree × List Char)
  | 0, _ => .error .runtimeError
  | _ + 1, [] => .error .indexError
  | n + 1, c :: s =>
    if c = ')' then .ok ([], c :: s)
    else match build n (c :: s) with
      | .error e => .error e
      | .ok (t, r) => match buildKids n r with
        | .error e => .error e
        | .ok (ts, r') => .ok (t :: ts, r')
end

/-- ccgbank_parser.py:377-385: the value of `tree` at the end, and whether there was an exception. -/
def attempt (s : List Char) : Option CTree × Bool :=
  match build (2 * s.length + 1) s with
  | .error _ => (none, true)
  | .ok (t, rest) => (some t, !rest.isEmpty)

/-- ccgbank_parser.py:371-387; `parseError` is `CCGBankParseError`. -/
def sentences2trees (tokenised suppress : Bool) : List (List Char) → Except PyErr (List (Option CTree))
  | [] => .ok []
  | s :: ss =>
    if tokenised then .error .valueError
    else if (attempt s).2 && !suppress then .error .parseError
    else match sentences2trees tokenised suppress ss with
      | .error e => .error e
      | .ok ts => .ok ((attempt s).1 :: ts)

/-- `str.strip` -/
def strip (s : List Char) : List Char := ((s.dropWhile space).reverse.dropWhile space).reverse

/-- ccgbank_parser.py:74-76 -/
def matchId (line : List Char) : Option (List Char) :=
  match line with
  | 'I' :: 'D' :: '=' :: t => if t.takeWhile (fun c => !space c) = [] then none else some (t.takeWhile (fun c => !space c))
  | _ => none

/-- ccgbank_parser.py:210-218: the tree of a line, in `section2trees_gen`. -/
def lineTree (suppress : Bool) (line : List Char) : Except PyErr (Option CTree) :=
  match sentences2trees false false [strip line] with
  | .ok ts => .ok (ts.head?.join)
  | .error _ => if suppress then .ok none else .error .parseError

/-- What a generator does: what it yields, and the exception that ends it. -/
abbrev Gen (α : Type) := List α × Option PyErr

/-- ccgbank_parser.py:200-222: one file. `next(f)` at the end of the file raises `StopIteration`, which in a generator becomes `RuntimeError`. -/
def readFile (suppress : Bool) : List (List Char) → Gen (List Char × Option CTree)
  | [] => ([], none)
  | l :: ls => match matchId l with
    | none => if suppress then readFile suppress ls else ([], some .parseError)
    | some i => match ls with
      | [] => ([], some .runtimeError)
      | l' :: rest => match lineTree suppress l' with
        | .error e => ([], some e)
        | .ok t => ((i, t) :: (readFile suppress rest).1, (readFile suppress rest).2)

/-- ccgbank_parser.py:195-222: the files of a section, in the order of their names. -/
def readSection (suppress : Bool) : List (List (List Char)) → Gen (List Char × Option CTree)
  | [] => ([], none)
  | f :: fs => match (readFile suppress f).2 with
    | some e => ((readFile suppress f).1, some e)
    | none => ((readFile suppress f).1 ++ (readSection suppress fs).1, (readSection suppress fs).2)

/-- ccgbank_parser.py:149-152: the dictionary; `none` for a key that is not there. -/
def section2trees (suppress : Bool) (files : List (List (List Char))) : Except PyErr (List Char → Option (Option CTree)) :=
  match (readSection suppress files).2 with
  | some e => .error e
  | none => .ok (fun k => ((readSection suppress files).1.reverse.find? (fun p => p.1 == k)).map Prod.snd)

/-! ## Specification: the format of CCGBank -/

/-- A derivation of CCGBank: a leaf with its category, the two parts of speech, its word and the category with indices; a node with its category, the index of its head,
the number of children as it is written, and its children. -/
inductive Deriv
  | leaf (cat mod orig word pred : List Char)
  | node (cat : List Char) (head : Bool) (count : Nat) (children : List Deriv)

namespace Deriv

mutual
/-- As in the files of CCGBank, without the space that follows. -/
def print : Deriv → List Char
  | leaf cat mod orig word pred => ['(', '<', 'L', ' '] ++ cat ++ [' '] ++ mod ++ [' '] ++ orig ++ [' '] ++ word ++ [' '] ++ pred ++ ['>', ')']
  | node cat h k ds => ['(', '<', 'T', ' '] ++ cat ++ [' ', if h then '1' else '0', ' '] ++ Nat.toDigits 10 k ++ ['>', ' '] ++ prints ds ++ [')']
/-- Each followed by a space. -/
def prints : List Deriv → List Char
  | [] => []
  | d :: ds => d.print ++ [' '] ++ prints ds
end

/-- A field of a line: at least one character, no white space. -/
def Field (s : List Char) : Prop := s ≠ [] ∧ ∀ c ∈ s, c.isWhitespace = false

mutual
/-- All fields are fields, and nodes have children. -/
def Ok : Deriv → Prop
  | leaf cat mod orig word pred => Field cat ∧ Field mod ∧ Field orig ∧ Field word ∧ Field pred
  | node cat _ _ ds => Field cat ∧ ds ≠ [] ∧ Oks ds
def Oks : List Deriv → Prop
  | [] => True
  | d :: ds => d.Ok ∧ Oks ds
end

mutual
/-- The tree of a derivation: the same shape, with types instead of categories, words without escapes, and the rule that takes the types of the children to the type. -/
def tree : Deriv → Except PyErr CTree
  | leaf cat _ _ word _ => match bankType cat with
    | .error e => .error e
    | .ok ty => .ok (.node (some (unescape word)) .lexical ty 0 [])
  | node cat _ _ ds => match bankType cat with
    | .error e => .error e
    | .ok ty => match trees ds with
      | .error e => .error e
      | .ok cs => match Rule.inferRule (cs.map CTree.ty) ty with
        | .error e => .error e
        | .ok r => CTree.mk none r ty cs
def trees : List Deriv → Except PyErr (List CTree)
  | [] => .ok []
  | d :: ds => match d.tree with
    | .error e => .error e
    | .ok t => match trees ds with
      | .error e => .error e
      | .ok ts => .ok (t :: ts)
end

mutual
/-- The words of a derivation. -/
def words : Deriv → List (List Char)
  | leaf _ _ _ word _ => [word]
  | node _ _ _ ds => wordss ds
def wordss : List Deriv → List (List Char)
  | [] => []
  | d :: ds => d.words ++ wordss ds
end

/-- Whether it is a leaf. -/
def isLeaf : Deriv → Bool
  | leaf .. => true
  | node .. => false

mutual
/-- The numbers of children are as written. -/
def Counted : Deriv → Prop
  | leaf .. => True
  | node _ _ k ds => k = ds.length ∧ Counteds ds
def Counteds : List Deriv → Prop
  | [] => True
  | d :: ds => d.Counted ∧ Counteds ds
end

end Deriv

/-- An entry of a file: its ID, the rest of that line, the derivation, and white space at the end of its line. -/
structure Entry where
  id : List Char
  more : List Char
  deriv : Deriv
  trail : List Char

/-- The two lines of an entry. -/
def Entry.lines (e : Entry) : List (List Char) := [['I', 'D', '='] ++ e.id ++ e.more, e.deriv.print ++ e.trail]

/-- The parts of an entry are what they should be; something that is not part of the ID follows it. -/
def Entry.Ok (e : Entry) : Prop :=
  Deriv.Field e.id ∧ (∀ c ∈ e.more.head?, c.isWhitespace = true) ∧ e.deriv.Ok ∧ ∀ c ∈ e.trail, c.isWhitespace = true

end Bank
end Lambeq
