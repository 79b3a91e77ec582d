import Verif.Bobcat.Category

/-!
# Bobcat: categories as strings (C93)

Models `Category._str`, `__str__`, `__repr__` (bobcat/lexicon.py:150-182), the regular expressions, `parse_variable_id`, `parse` and `_parse` (252-308).

Simplifications: strings are lists of characters, positions are remainders of the string. `\d` is a decimal ASCII digit. A relation is its slot: its `category` is the
string that is being parsed, for all relations of a category. The recursion of `_parse` is bounded by the length of the string, which it cannot exceed. The cache `CATEGORIES`
is left out (it returns what was computed for the same arguments).
-/

namespace Lambeq
namespace Bobcat

/-- lexicon.py:30-31: `str(atom)` -/
def Atom.chars : Atom → List Char
  | .none => []
  | .n => ['N'] | .np => ['N', 'P'] | .s => ['S'] | .pp => ['P', 'P'] | .conj => ['c', 'o', 'n', 'j'] | .comma => [','] | .semicolon => [';']
  | .colon => [':'] | .period => ['.'] | .lqu => ['L', 'Q', 'U'] | .rqu => ['R', 'Q', 'U'] | .lrb => ['L', 'R', 'B'] | .rrb => ['R', 'R', 'B']

/-- fast_int_enum.py:84-85: `Atom(value)` -/
def Atom.ofChars (s : List Char) : Except PyErr Atom :=
  match [Atom.none, .n, .np, .s, .pp, .conj, .comma, .semicolon, .colon, .period, .lqu, .rqu, .lrb, .rrb].find? (fun a => a.chars == s) with
  | some a => .ok a
  | Option.none => .error .keyError

/-- lexicon.py:48-50, without the first two. -/
def featureNames : List String := ["adj", "as", "asup", "b", "bem", "dcl", "em", "expl", "for", "frg", "intj", "inv", "nb", "ng", "num", "poss", "pss", "pt", "q", "qem",
  "thr", "to", "wq"]

/-- `str(feature)` -/
def Feature.chars : Feature → List Char
  | .none => []
  | .x => ['X']
  | .named s => s.toList

/-- fast_int_enum.py:84-85: `Feature(value)` -/
def Feature.ofChars (s : List Char) : Except PyErr Feature :=
  if s = [] then .ok .none else if s = ['X'] then .ok .x else
    match featureNames.find? (fun n => n.toList == s) with
    | some n => .ok (.named n)
    | Option.none => .error .keyError

/-- lexicon.py:259 -/
def varChars : List Char := ['+', '_', 'Y', 'Z', 'W', 'V', 'U', 'T', 'R', 'Q', 'A', 'B']

/-- lexicon.py:167-174: what is added for the variable and the relation. `VARIABLES[var]` raises for variables that are out of range; the model then writes nothing. -/
def suffixStr (var : Nat) (rel : Option Nat) (k : Nat) : List Char × Nat :=
  let v : List Char := if var ≠ 0 then ['{'] ++ (varChars[var]?).toList ++ ['}'] else []
  if rel.isSome then (v ++ ['<'] ++ Nat.toDigits 10 (k + 1) ++ ['>'], k + 1) else (v, k)

namespace BCat

/-- The attribute `complex`. -/
def isComplex : BCat → Bool
  | .atomic .. => false
  | .slash .. => true

/-- lexicon.py:162-163 -/
def wrap (c : BCat) (s : List Char) : List Char :=
  if c.isComplex && !(s.getLast? == some '}' || s.getLast? == some '>') then ['('] ++ s ++ [')'] else s

/-- lexicon.py:150-176 -/
def toStr (full : Bool) : BCat → Nat → List Char × Nat
  | .atomic a f v r, k =>
    let out := a.chars ++ (if f ≠ .none then ['['] ++ f.chars ++ [']'] else [])
    if full && (v != 0 || r.isSome) then (out ++ (suffixStr v r k).1, (suffixStr v r k).2) else (out, k)
  | .slash d r a v l _, k =>
    let x := r.toStr full k
    let y := a.toStr full x.2
    let out := r.wrap x.1 ++ [d] ++ a.wrap y.1
    if full && (v != 0 || l.isSome) then ((['('] ++ out ++ [')']) ++ (suffixStr v l y.2).1, (suffixStr v l y.2).2) else (out, y.2)

/-- lexicon.py:178-179 -/
def repr (c : BCat) : List Char := (c.toStr true 0).1
/-- lexicon.py:181-182 -/
def str (c : BCat) : List Char := (c.toStr false 0).1

end BCat

/-! ## Reading -/

def isUpper (c : Char) : Bool := decide ('A' ≤ c ∧ c ≤ 'Z')
def isLower (c : Char) : Bool := decide ('a' ≤ c ∧ c ≤ 'z')

/-- lexicon.py:252: `(\{(?P<var>[_A-Z]+)\*?})?`; the variable, if there is one, and what follows. -/
def matchVar (s : List Char) : Option (List Char) × List Char :=
  match s with
  | '{' :: t =>
    let v := t.takeWhile (fun c => c == '_' || isUpper c)
    let rest := t.dropWhile (fun c => c == '_' || isUpper c)
    if v = [] then (none, s) else
      match rest with
      | '}' :: u => (some v, u)
      | '*' :: '}' :: u => (some v, u)
      | _ => (none, s)
  | _ => (none, s)

/-- lexicon.py:253: `(<(?P<slot>\d+)>)?`; whether there is a slot, and what follows. -/
def matchSlot (s : List Char) : Bool × List Char :=
  match s with
  | '<' :: t =>
    let n := t.takeWhile Char.isDigit
    match t.dropWhile Char.isDigit with
    | '>' :: u => if n = [] then (false, s) else (true, u)
    | _ => (false, s)
  | _ => (false, s)

/-- lexicon.py:255: `(\[(?P<feature>[Xa-z]+)])?` -/
def matchFeature (s : List Char) : Option (List Char) × List Char :=
  match s with
  | '[' :: t =>
    let f := t.takeWhile (fun c => c == 'X' || isLower c)
    match t.dropWhile (fun c => c == 'X' || isLower c) with
    | ']' :: u => if f = [] then (none, s) else (some f, u)
    | _ => (none, s)
  | _ => (none, s)

/-- lexicon.py:254: `(?P<atom>[A-Z]+|conj|[,.;:])` -/
def matchAtom (s : List Char) : Option (List Char × List Char) :=
  match s with
  | [] => none
  | c :: t =>
    if isUpper c then some (s.takeWhile isUpper, s.dropWhile isUpper)
    else if s.take 4 = ['c', 'o', 'n', 'j'] then some (['c', 'o', 'n', 'j'], s.drop 4)
    else if c = ',' ∨ c = '.' ∨ c = ';' ∨ c = ':' then some ([c], t) else none

/-- lexicon.py:262-264 -/
def varId (s : List Char) : Except PyErr Nat :=
  match s with
  | [c] => if c ∈ varChars then .ok (varChars.idxOf c) else .error .valueError
  | _ => .error .assertionError

/-- lexicon.py:296, 304 -/
def readVar : Option (List Char) → Except PyErr Nat
  | none => .ok 0
  | some v => varId v

/-- lexicon.py:302 -/
def readFeature : Option (List Char) → Except PyErr Feature
  | none => .ok .none
  | some n => Feature.ofChars n

/-- lexicon.py:300-306 -/
def parseAtomic (slots : Nat) (s : List Char) : Except PyErr (BCat × List Char × Nat) :=
  match matchAtom s with
  | none => .error .assertionError
  | some (a, r1) =>
    let f := matchFeature r1
    let v := matchVar f.2
    let l := matchSlot v.2
    match readFeature f.1 with
    | .error e => .error e
    | .ok feat => match readVar v.1 with
      | .error e => .error e
      | .ok var => match Atom.ofChars a with
        | .error e => .error e
        | .ok atom => .ok (.atomic atom feat var (if l.1 then some slots else none), l.2, slots)

/-- lexicon.py:280-308; the first argument bounds the recursion. -/
def parseAux : Nat → List Char → Nat → Nat → Bool → Except PyErr (BCat × List Char × Nat)
  | 0, _, _, _, _ => .error .runtimeError
  | _ + 1, [], _, _, _ => .error .indexError
  | n + 1, c :: s, tr, slots, inResult =>
    if c = '(' then
      match parseAux n s 0 slots inResult with
      | .error e => .error e
      | .ok (_, [], _) => .error .indexError
      | .ok (left, dir :: s1, slots1) =>
        match parseAux n s1 0 (if inResult then slots1 + 1 else slots1) false with
        | .error e => .error e
        | .ok (_, [], _) => .error .indexError
        | .ok (right, c' :: s2, slots2) =>
          if c' ≠ ')' then .error .assertionError
          else
            let v := matchVar s2
            let l := matchSlot v.2
            match readVar v.1 with
            | .error e => .error e
            | .ok var => .ok (.slash dir left right var (if l.1 then some slots2 else none) tr, l.2, slots2)
    else parseAtomic slots (c :: s)

/-- lexicon.py:267-277 -/
def parse (s : List Char) (tr : Char) : Except PyErr BCat :=
  match varId [tr] with
  | .error e => .error e
  | .ok var => match parseAux (s.length + 3) s var 0 true with
    | .error e => .error e
    | .ok (c, [], _) => .ok c
    | .ok (_, _ :: _, _) => match parseAux (s.length + 3) (['('] ++ s ++ [')']) var 0 true with
      | .error e => .error e
      | .ok (c, [], _) => .ok c
      | .ok (_, _ :: _, _) => .error .assertionError

/-! ## Specification -/

namespace BCat

/-- The category without variables and relations. -/
def bare : BCat → BCat
  | .atomic a f _ _ => .atomic a f 0 none
  | .slash d r a _ _ _ => .slash d r.bare a.bare 0 none 0

/-- Categories of the grammar: real atoms, features of the list, slashes that lean left or right, variables of the list. -/
def Clean : BCat → Prop
  | .atomic a f v _ => a ≠ .none ∧ (f = .none ∨ f = .x ∨ ∃ n ∈ featureNames, f = .named n) ∧ v < 12
  | .slash d r a v _ _ => (d = '/' ∨ d = '\\') ∧ r.Clean ∧ a.Clean ∧ v < 12

/-- Whether a category has a variable or a relation of its own. -/
def HasMark (c : BCat) : Prop := c.var ≠ 0 ∨ c.rel.isSome

/-- All complex categories within a category, except perhaps itself, are marked. -/
def PartsMarked : BCat → Prop
  | .atomic .. => True
  | .slash _ r a _ _ _ => (r.isComplex = true → r.HasMark) ∧ (a.isComplex = true → a.HasMark) ∧ r.PartsMarked ∧ a.PartsMarked

/-- The number of arguments. -/
def arity : BCat → Nat
  | .atomic .. => 0
  | .slash _ r _ _ _ _ => r.arity + 1

/-- All relations of a category with slot `n`. -/
def allSlots (n : Nat) : BCat → BCat
  | .atomic a f v r => .atomic a f v (r.map (fun _ => n))
  | .slash d r a v l _ => .slash d (r.allSlots n) (a.allSlots n) v (l.map (fun _ => n)) 0

/-- Relations with their slots: those of the `n`-th argument, and of the category that takes it, have slot `n`; arguments are counted from the innermost. -/
def slotted (tr : Nat) : BCat → BCat
  | .atomic a f v r => .atomic a f v (r.map (fun _ => 0))
  | .slash d r a v l _ => .slash d (r.slotted 0) (a.allSlots (r.arity + 1)) v (l.map (fun _ => r.arity + 1)) tr

end BCat

end Bobcat
end Lambeq
