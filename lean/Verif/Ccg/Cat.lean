import Verif.Grammar.Ty

/-!
# CCG categories

Models `lambeq/text2diagram/ccg_type.py` (class `CCGType`, lines 38-560).  The Python dataclass
with its constructor assertions (lines 110-123) has exactly the four shapes of `Cat` below:
empty, atomic, and the two slashes.
-/

namespace Lambeq

/-- ccg_type.py:38-123.  `over x y` is `X/Y`, `under x y` is `X\Y` (result first). -/
inductive Cat
  | empty
  | atom (name : String)
  | over (result argument : Cat)
  | under (result argument : Cat)
  deriving DecidableEq, Repr

namespace Cat

/-- ccg_type.py:112 `is_complex` -/
def isComplex : Cat → Bool | over _ _ => true | under _ _ => true | _ => false
/-- ccg_type.py:113 `is_atomic` -/
def isAtomic : Cat → Bool | atom _ => true | _ => false
/-- ccg_type.py:111 `is_over` -/
def isOver : Cat → Bool | over _ _ => true | _ => false
/-- ccg_type.py:110 `is_under` -/
def isUnder : Cat → Bool | under _ _ => true | _ => false
/-- ccg_type.py:69 `_direction` -/
def dir? : Cat → Option Char | over _ _ => some '/' | under _ _ => some '\\' | _ => none

/-- ccg_type.py:138-148 -/
def result : Cat → Except PyErr Cat
  | over x _ => .ok x | under x _ => .ok x | _ => .error .attributeError
/-- ccg_type.py:162-172 -/
def argument : Cat → Except PyErr Cat
  | over _ y => .ok y | under _ y => .ok y | _ => .error .attributeError
/-- ccg_type.py:174-186 -/
def left : Cat → Except PyErr Cat
  | over x _ => .ok x | under _ y => .ok y | _ => .error .attributeError
/-- ccg_type.py:188-200 -/
def right : Cat → Except PyErr Cat
  | over _ y => .ok y | under x _ => .ok x | _ => .error .attributeError

/-- ccg_type.py:567 -/
def CONJ : Cat := atom "conj"
/-- ccg_type.py:568 -/
def PUNC : Cat := atom "punc"
/-- ccg_type.py:563 -/
def NOUN : Cat := atom "n"
/-- ccg_type.py:564 -/
def NP : Cat := atom "np"

/-- ccg_type.py:202-205 -/
def isConjoinable (c : Cat) : Bool := c == CONJ || c == PUNC

/-- ccg_type.py:207-211 with `direction` one of the two slash characters (the constructor's
assertion, lines 116-120, rejects others; every caller passes `/` or `\`). -/
def slash (result : Cat) (isFwd : Bool) (argument : Cat) : Cat :=
  if isFwd then over result argument else under result argument

/-! ## Printing -/

/-- The `if ... is_complex: f'({...})'` of ccg_type.py:244-249. -/
def wrap (c : Cat) (s : List Char) : List Char := if c.isComplex then '(' :: s ++ [')'] else s

/-- ccg_type.py:227-255 with `pretty=False`. -/
def toStr : Cat → List Char
  | empty => ['(', ')']
  | atom n => n.toList
  | over x y => wrap x x.toStr ++ '/' :: wrap y y.toStr
  | under x y => wrap x x.toStr ++ '\\' :: wrap y y.toStr

/-! ## Parsing -/

/-- The two operator characters, ccg_type.py:348. -/
def isOp (c : Char) : Bool := c == '/' || c == '\\'

/-- The characters that end an atomic name, `r'/\)'` of ccg_type.py:364,370. -/
def isStop (c : Char) : Bool := c == '/' || c == '\\' || c == ')'

/-- The loop of ccg_type.py:369-374: collect characters up to a stop character; an opening
bracket raises.  Returns the collected characters and the rest of the input. -/
def scanAtom : List Char → Except PyErr (List Char × List Char)
  | [] => .ok ([], [])
  | c :: cs =>
    if isStop c then .ok ([], c :: cs)
    else if c == '(' then .error .parseError
    else match scanAtom cs with
      | .ok (a, rest) => .ok (c :: a, rest)
      | .error e => .error e

mutual
/-- ccg_type.py:353-388.  The position `start`/`end` into `cat` is represented by the remaining
suffix of `cat`.  `fuel` bounds the recursion (Python's recursion limit is not modelled); it is
never exhausted by `parse`, see `C27_parse_total`. -/
def parseClean (f : String → String) : Nat → List Char → Except PyErr (Cat × List Char)
  | 0, _ => .error .runtimeError
  | _ + 1, [] => .error .parseError
  | n + 1, c :: cs =>
    if c ≠ '(' then
      if isStop c then .error .parseError
      else match scanAtom (c :: cs) with
        | .error e => .error e
        | .ok (a, rest) => .ok (atom (f (String.ofList a)), rest)
    else match parseCompound f n cs with
      | .error e => .error e
      | .ok (_, []) => .error .parseError
      | .ok (t, d :: rest) => if d == ')' then .ok (t, rest) else .error .assertionError
/-- ccg_type.py:335-351 -/
def parseCompound (f : String → String) : Nat → List Char → Except PyErr (Cat × List Char)
  | 0, _ => .error .runtimeError
  | n + 1, s =>
    match parseClean f n s with
    | .error e => .error e
    | .ok (t, []) => .ok (t, [])
    | .ok (t, op :: rest) =>
      if isOp op then
        match parseClean f n rest with
        | .error e => .error e
        | .ok (a, rest') => .ok (slash t (op == '/') a, rest')
      else .ok (t, op :: rest)
end

/-- ccg_type.py:78 -/
def conjTag : List Char := "[conj]".toList

/-- ccg_type.py:264-333.  `f` is `map_atomic` (`id` when it is `None`). -/
def parse (f : String → String) (cat : List Char) : Except PyErr Cat :=
  let isConj := conjTag.isSuffixOf cat
  let clean := if isConj then cat.take (cat.length - 6) else cat
  match parseCompound f (2 * clean.length + 2) clean with
  | .error e => .error e
  | .ok (t, extra) =>
    let t' := if isConj then under t t else t
    if extra.isEmpty then .ok t' else .error .parseError

/-! ## Replacement -/

/-- ccg_type.py:390-400 -/
def replace (original replacement : Cat) (self : Cat) : Except PyErr Cat :=
  if self = original then .ok replacement
  else match self with
    | atom n => .ok (atom n)
    | empty => .error .attributeError
    | over x y => do
      let x' ← replace original replacement x
      let y' ← replace original replacement y
      .ok (over x' y')
    | under x y => do
      let x' ← replace original replacement x
      let y' ← replace original replacement y
      .ok (under x' y')

/-- The chained comparison `self.direction != d != '|'` of ccg_type.py:501,511. -/
def clash (selfDir d : Char) : Bool := selfDir != d && d != '|'

/-- ccg_type.py:499-515 for a complex category `self` with result `x` and direction `dir`;
`reslash c` is `c.slash(self.direction, self.argument)`, `inner` is the value of the recursive call
on `x` (looked at only where Python makes the call). -/
def replaceResultStep (original replacement : Cat) (d0 d1 : Char) (x : Cat) (dir : Char) (self : Cat)
    (reslash : Cat → Cat) (inner : Except PyErr (Cat × Option Cat)) : Except PyErr (Cat × Option Cat) :=
  let here : Except PyErr (Cat × Option Cat) :=
    if clash dir d0 then .ok (self, none) else .ok (reslash replacement, some x)
  if x = original ∨ x.isAtomic then here
  else if clash dir d1 then here
  else match inner with
    | .error e => .error e
    | .ok (_, none) => here
    | .ok (new, some old) => .ok (reslash new, some old)

/-- ccg_type.py:490-515, for the two characters `direction[0]` and `direction[-1]`. -/
def replaceResultAux (original replacement : Cat) (d0 d1 : Char) : Cat → Except PyErr (Cat × Option Cat)
  | atom n => .ok (atom n, none)
  | empty => .error .attributeError
  | over x y => replaceResultStep original replacement d0 d1 x '/' (over x y) (fun c => over c y)
      (replaceResultAux original replacement d0 d1 x)
  | under x y => replaceResultStep original replacement d0 d1 x '\\' (under x y) (fun c => under c y)
      (replaceResultAux original replacement d0 d1 x)

/-- ccg_type.py:402-515, including the check of `direction` on lines 488-489. -/
def replaceResult (self original replacement : Cat) (direction : List Char) :
    Except PyErr (Cat × Option Cat) :=
  if ¬ ((direction.length = 1 ∨ direction.length = 2) ∧ ∀ c ∈ direction, c = '\\' ∨ c = '|' ∨ c = '/')
  then .error .valueError
  else match direction with
    | [a] => replaceResultAux original replacement a a self
    | [a, b] => replaceResultAux original replacement a b self
    | _ => .error .valueError

/-! ## Translation to pregroup types -/

/-- ccg_type.py:517-530 (with `Ty.__lshift__`/`__rshift__`, grammar.py:330-338). -/
def toTy : Cat → Ty
  | over x y => x.toTy ++ Ty.l y.toTy
  | under x y => Ty.r y.toTy ++ x.toTy
  | atom n => [⟨n, 0⟩]
  | empty => []

/-- The loop of ccg_type.py:551-560; `L`, `R` are the variables `left`, `right`. -/
def splitLoop (base : Cat) (L R : Ty) (cat : Cat) : Except PyErr (Ty × Ty × Ty) :=
  if cat = base then .ok (L, cat.toTy, R)
  else match cat with
    | over x y => splitLoop base L (Ty.l y.toTy ++ R) x
    | under x y => splitLoop base (L ++ Ty.r y.toTy) R x
    | atom _ => .error .attributeError
    | empty => .error .attributeError

/-- ccg_type.py:532-560 -/
def split (self base : Cat) : Except PyErr (Ty × Ty × Ty) := splitLoop base [] [] self

end Cat
end Lambeq
