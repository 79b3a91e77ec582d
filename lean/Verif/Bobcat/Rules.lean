import Verif.Bobcat.Category

/-!
# Bobcat: unification and the combination rules

Models `lambeq/bobcat/tree.py` 82-204 (`Variable`, `Unify`), 228-271, 303-306, 318-320, 327-347, 350-388, 391-406 (the parse trees, without
dependencies) and `lambeq/bobcat/rules.py` 32-63, 126-485 (`CatKind`, `Rules`).

Simplifications. A tree is its rule, its category and its variable map: nothing here looks at the children, which are always the two
arguments. The dependencies (`unfilled_deps`, `filled_deps`) are not modelled, except for the two exceptions that building the dependency of
a coordination may raise. A word is a number. The order in which Python iterates over the set `cat.vars` is a parameter `ord`; the rules of
the grammar are given as dictionaries keyed by categories (lists of items).
-/

namespace Lambeq
namespace Bobcat

/-- tree.py:207-225 -/
inductive Rule
  | none | l | u | ba | fa | bc | fc | bx | gbc | gfc | gbx | lp | rp | btr | ftr | conj | adjConj
  deriving DecidableEq, Repr

/-- tree.py:82-97 -/
structure Variable where
  fillers : List Nat
  filled : Bool
  deriving DecidableEq, Repr

/-- tree.py:94-97 -/
def Variable.add (v w : Variable) : Variable := ⟨v.fillers ++ w.fillers, true⟩

/-- tree.py:99-106 -/
def Variable.asFilled (v : Variable) (filled : Bool) : Variable := ⟨v.fillers, filled⟩

/-- tree.py:228-237 -/
structure Tree where
  rule : Rule
  cat : BCat
  varMap : Nat → Option Variable

namespace Tree
/-- tree.py:257-259 -/
def coordinatedOrTypeRaised (t : Tree) : Bool := t.rule = .conj || t.rule = .btr || t.rule = .ftr
/-- tree.py:261-263 -/
def coordinated (t : Tree) : Bool := t.rule = .conj
/-- tree.py:265-267 -/
def bwdComp (t : Tree) : Bool := t.rule = .bc || t.rule = .gbc
/-- tree.py:269-271 -/
def fwdComp (t : Tree) : Bool := t.rule = .fc || t.rule = .gfc
/-- tree.py:246-251; `none` is the AttributeError. -/
def headVar (t : Tree) : Option Variable := t.varMap t.cat.var
end Tree

/-! ## Unification -/

/-- The attributes of `Unify` that change, tree.py:118-124. -/
structure UState where
  feature : Feature
  num : Nat
  transL : Nat → Option Nat
  transR : Nat → Option Nat
  oldL : Nat → Option Nat
  oldR : Nat → Option Nat

/-- tree.py:118-124 -/
def UState.init : UState := ⟨.none, 1, fun _ => none, fun _ => none, fun _ => none, fun _ => none⟩

/-- Assignment to a dictionary. -/
def put {α : Type} (m : Nat → Option α) (k : Nat) (v : α) : Nat → Option α := fun i => if i = k then some v else m i

/-- tree.py:170-177 -/
def bothFilled (lm rm : Nat → Option Variable) (lv rv : Nat) : Bool :=
  match lm lv, rm rv with
  | some v1, some v2 => v1.filled && v2.filled
  | _, _ => false

/-- tree.py:168-186 -/
def bindVars (lm rm : Nat → Option Variable) (lv rv : Nat) (st : UState) : Option UState :=
  if (st.transL lv).isNone && (st.transR rv).isNone then
    if bothFilled lm rm lv rv then none
    else some { st with transL := put st.transL lv st.num, transR := put st.transR rv st.num, oldL := put st.oldL st.num lv,
                        oldR := put st.oldR st.num rv, num := st.num + 1 }
  else some st

/-- tree.py:152-161 -/
def unifyAtoms (la : Atom) (lf : Feature) (ra : Atom) (rf : Feature) (st : UState) : Option UState :=
  if la ≠ ra then none
  else if la = .s then
    if lf = .x then some { st with feature := rf }
    else if rf = .x then some { st with feature := lf }
    else if lf ≠ rf then none
    else some st
  else some st

/-- tree.py:150-186. The result `none` is `False`, after which the object is not used any more. -/
def unifyRec (lm rm : Nat → Option Variable) : BCat → BCat → UState → Option UState
  | .atomic a f v _, right, st =>
    match unifyAtoms a f right.atom right.feature st with
    | none => none
    | some st' => bindVars lm rm v right.var st'
  | .slash _ _ _ _ _ _, .atomic .., _ => none
  | .slash d r a v _ _, .slash d' r' a' v' _ _, st =>
    if d ≠ d' then none
    else match unifyRec lm rm r r' st with
      | none => none
      | some st1 =>
        match unifyRec lm rm a a' st1 with
        | none => none
        | some st2 => bindVars lm rm v v' st2

/-- tree.py:190-195, for the left translation. -/
def addVarsL (vars : List Nat) (st : UState) : UState :=
  vars.foldl (fun st v => if (st.transL v).isNone then
    { st with transL := put st.transL v st.num, oldL := put st.oldL st.num v, num := st.num + 1 } else st) st

/-- tree.py:190-195, for the right translation. -/
def addVarsR (vars : List Nat) (st : UState) : UState :=
  vars.foldl (fun st v => if (st.transR v).isNone then
    { st with transR := put st.transR v st.num, oldR := put st.oldR st.num v, num := st.num + 1 } else st) st

section
variable (ord : BCat → List Nat)

/-- tree.py:113-148: a new `Unify(left, right, result_is_left)`, then `unify(arg, res)`. -/
def unify (left right : Tree) (resultIsLeft : Bool) (arg res : BCat) : Option UState :=
  if resultIsLeft then
    match unifyRec left.varMap right.varMap res arg UState.init with
    | none => none
    | some st => some (addVarsL (ord left.cat) (addVarsR (ord right.cat) st))
  else
    match unifyRec left.varMap right.varMap arg res UState.init with
    | none => none
    | some st => some (addVarsR (ord right.cat) (addVarsL (ord left.cat) st))

/-- tree.py:131, 134, 203-204 -/
def UState.transRes (st : UState) (resultIsLeft : Bool) : Nat → Option Nat := if resultIsLeft then st.transL else st.transR
/-- tree.py:131, 134, 200-201 -/
def UState.transArg (st : UState) (resultIsLeft : Bool) : Nat → Option Nat := if resultIsLeft then st.transR else st.transL

/-- tree.py:397-406 -/
def combinedVars (left right : Tree) (st : UState) : Nat → Option Variable := fun i =>
  if 1 ≤ i ∧ i < st.num then
    match (st.oldL i).bind left.varMap, (st.oldR i).bind right.varMap with
    | some l, some r => some (l.add r)
    | some l, none => some (l.asFilled true)
    | none, some r => some (r.asFilled true)
    | none, none => none
  else none

/-- tree.py:391-431 -/
def binaryCombinator (rule : Rule) (cat : BCat) (left right : Tree) (st : UState) : Tree := ⟨rule, cat, combinedVars left right st⟩

/-! ## Application and composition -/

/-- Attribute access on a value that may be `None`. -/
def need {α : Type} : Option α → Except PyErr α
  | some a => .ok a
  | none => .error .attributeError

/-- rules.py:318-328 -/
def application (left right : Tree) (fwd : Bool) : Except PyErr (Option Tree) :=
  let res := if fwd then left.cat else right.cat
  let arg := if fwd then right.cat else left.cat
  match res with
  | .atomic .. => .error .attributeError
  | .slash _ x y _ _ _ =>
    match unify ord left right fwd arg y with
    | none => .ok none
    | some st =>
      match x.translate (st.transRes fwd) st.feature with
      | .error e => .error e
      | .ok result => .ok (some (binaryCombinator (if fwd then .fa else .ba) result left right st))

/-- The names `'bc'`, `'bx'`, `'fc'`, rules.py:334. -/
inductive Comp | bc | bx | fc
  deriving DecidableEq, Repr

/-- tree.py:197-198 -/
def newOuterVar (left : Tree) (st : UState) : Nat := (st.transL left.cat.var).getD 0

/-- rules.py:362-389. The `assert` on `comp` holds at every call. -/
def gc2 (left right : Tree) (comp : Comp) : Except PyErr (Option Tree) :=
  let fwd := comp = .fc
  let res := if fwd then left.cat else right.cat
  let arg := if fwd then right.cat else left.cat
  match res, arg with
  | .slash _ x y _ _ _, .slash d2 (.slash d1 y' z1 v1 r1 _) z2 _ r2 _ =>
    match unify ord left right fwd y' y with
    | none => .ok none
    | some st =>
      match x.translate (st.transRes fwd) st.feature, z1.translate (st.transArg fwd) st.feature, st.transArg fwd v1,
          z2.translate (st.transArg fwd) st.feature with
      | .ok x', .ok z1', some v1', .ok z2' =>
        .ok (some (binaryCombinator (if fwd then .gfc else .gbx)
          (.slash d2 (.slash d1 x' z1' v1' r1 0) z2' (newOuterVar left st) r2 0) left right st))
      | _, _, _, _ => .error .keyError
  | _, _ => .error .attributeError

/-- rules.py:391-425 -/
def gc3 (left right : Tree) (comp : Comp) : Except PyErr (Option Tree) :=
  let fwd := comp = .fc
  let res := if fwd then left.cat else right.cat
  let arg := if fwd then right.cat else left.cat
  match res, arg with
  | .slash _ x y _ _ _, .slash d3 (.slash d2 (.slash d1 y' z1 v1 r1 _) z2 v2 r2 _) z3 _ r3 _ =>
    match unify ord left right fwd y' y with
    | none => .ok none
    | some st =>
      match x.translate (st.transRes fwd) st.feature, z1.translate (st.transArg fwd) st.feature, st.transArg fwd v1,
          z2.translate (st.transArg fwd) st.feature, st.transArg fwd v2, z3.translate (st.transArg fwd) st.feature with
      | .ok x', .ok z1', some v1', .ok z2', some v2', .ok z3' =>
        .ok (some (binaryCombinator (if fwd then .gfc else .gbx)
          (.slash d3 (.slash d2 (.slash d1 x' z1' v1' r1 0) z2' v2' r2 0) z3' (newOuterVar left st) r3 0) left right st))
      | _, _, _, _, _, _ => .error .keyError
  | _, _ => .error .attributeError

/-- The template `S\NP`, rules.py:433, 473. -/
def sNP : BCat := .slash '\\' (.atomic .s .none 0 none) (.atomic .np .none 0 none) 0 none 0

/-- The template `S[dcl]\S[dcl]`, rules.py:452. -/
def sDclSDcl : BCat := .slash '\\' (.atomic .s (.named "dcl") 0 none) (.atomic .s (.named "dcl") 0 none) 0 none 0

/-- rules.py:443-444, 483-484: `except AttributeError: pass`. -/
def catchAttr (r : Except PyErr (Option Tree)) : Except PyErr (Option Tree) :=
  match r with
  | .error .attributeError => .ok none
  | r => r

/-- rules.py:436-442, 476-482, after the test of the first line; `c` is the category of the composed argument. -/
def generalised (left right : Tree) (comp : Comp) (c : BCat) : Except PyErr (Option Tree) :=
  match gc2 ord left right comp with
  | .error e => .error e
  | .ok (some t) => .ok (some t)
  | .ok none =>
    match c with
    | .slash _ (.slash _ (.slash d y3 _ _ _ _) _ _ _ _) _ _ _ _ =>
      match y3 with
      | .slash _ y4 _ _ _ _ => if d = '/' ∧ y4.feature ≠ .x then gc3 ord left right comp else .ok none
      | .atomic .. => .error .attributeError
    | _ => .error .attributeError

/-- rules.py:433-435, 473-475: the first test, for the category `y` that must match `S\NP` and the composed argument `c`; the attribute
error is `none`. -/
def generalisedTest (y c : BCat) : Option Bool :=
  if sNP.doesMatch y then
    match c with
    | .slash _ r _ _ _ _ =>
      if r.fwd then
        match r with
        | .slash _ (.slash _ y3 _ _ _ _) _ _ _ _ => some (decide (y3.feature ≠ .x))
        | _ => none
      else some false
    | .atomic .. => none
  else some false

/-- rules.py:427-445 and 467-485: `y` is the argument of the functor, `c` the category of the composed argument. -/
def generalisedComposition (left right : Tree) (comp : Comp) : Except PyErr (Option Tree) :=
  let functor := if comp = .fc then left.cat else right.cat
  let c := if comp = .fc then right.cat else left.cat
  match functor.argument with
  | none => .ok none
  | some y =>
    match generalisedTest y c with
    | none => .ok none
    | some false => .ok none
    | some true => catchAttr (generalised ord left right comp c)

/-- rules.py:447-465. The attribute accesses succeed where it is called: both categories are complex. -/
def generalisedBackwardComposition (left right : Tree) : Except PyErr (Option Tree) :=
  match left.cat, right.cat with
  | .slash _ r _ _ _ _, .slash _ _ y _ _ _ =>
    if sDclSDcl.doesMatch r then
      match r with
      | .slash _ rr _ _ _ _ =>
        match left.varMap rr.var with
        | none => .ok none
        | some v =>
          if v.filled then
            match unify ord left right false rr y with
            | none => .ok none
            | some st => .ok (some (binaryCombinator .gbc left.cat left right st))
          else .ok none
      | .atomic .. => .error .attributeError
    else .ok none
  | _, _ => .error .attributeError

/-- rules.py:341-346 -/
def compositionFallback (left right : Tree) : Comp → Except PyErr (Option Tree)
  | .fc => generalisedComposition ord left right .fc
  | .bx => generalisedComposition ord left right .bx
  | .bc => generalisedBackwardComposition ord left right

/-- rules.py:354-359 -/
def compositionRule : Comp → Rule
  | .bc => .bc
  | .fc => .fc
  | .bx => .bx

/-- rules.py:330-360 -/
def composition (left right : Tree) (comp : Comp) : Except PyErr (Option Tree) :=
  let fwd := comp = .fc
  let res := if fwd then left.cat else right.cat
  let arg := if fwd then right.cat else left.cat
  match res, arg with
  | .slash _ x y _ _ _, .slash _ y' z _ _ _ =>
    match unify ord left right fwd y' y with
    | none => compositionFallback ord left right comp
    | some st =>
      match x.translate (st.transRes fwd) st.feature, z.translate (st.transArg fwd) st.feature with
      | .ok x', .ok z' =>
        .ok (some (binaryCombinator (compositionRule comp)
          (.slash (if comp = .bc then '\\' else '/') x' z' (newOuterVar left st) none 0) left right st))
      | _, _ => .error .keyError
  | _, _ => .error .attributeError

/-! ## The other rules -/

/-- rules.py:66-70: the result of a type changing rule; the identifier and the flag only matter for dependencies. -/
abbrev ChangeRules := List (BCat × List BCat)

/-- The grammar, rules.py:87-124. -/
structure GrammarRules where
  eisner : Bool
  instances : List (BCat × BCat)
  typeRaising : List (BCat × List BCat)
  unary : ChangeRules
  leftPunct : List (BCat × ChangeRules)
  rightPunct : List (BCat × ChangeRules)

/-- tree.py:321-347 -/
def typeChanging (rule : Rule) (cat : BCat) (left : Tree) (right : Option Tree) : Tree :=
  let head := match rule, right with
    | .lp, some r => r
    | _, _ => left
  ⟨rule, cat, match head.headVar with
    | some v => if cat.var ≠ 0 then put (fun _ => none) cat.var v else fun _ => none
    | none => fun _ => none⟩

/-- tree.py:375-388 -/
def typeRaising (cat : BCat) (left : Tree) : Tree :=
  ⟨if cat.fwd then .ftr else .btr, cat, match left.headVar with
    | some v => put (fun _ => none) 1 v
    | none => fun _ => none⟩

/-- tree.py:350-372 -/
def passThrough (rule : Rule) (through : Tree) : Tree := ⟨rule, through.cat, through.varMap⟩

/-- tree.py:307-317: the exceptions of building the dependency. -/
def coordinationCheck (left right : Tree) : Except PyErr Unit :=
  match right.headVar with
  | none => .ok ()
  | some v =>
    if v.filled then
      match left.headVar with
      | none => .error .attributeError
      | some w => if w.fillers = [] then .error .indexError else .ok ()
    else .ok ()

/-- rules.py:305-306 and tree.py:303-318. -/
def coordinate (left right : Tree) : Except PyErr Tree :=
  match coordinationCheck left right with
  | .error e => .error e
  | .ok _ => .ok ⟨.conj, .slash '\\' right.cat right.cat 0 none 0, fun k => (right.varMap k).map (fun v => v.asFilled false)⟩

variable (hA : Atom → Feature → Int) (hC : Int → Int → Char → Int) (g : GrammarRules)

/-- rules.py:178-193 -/
def typeChangeCat (rule : Rule) (cat : BCat) (left : Tree) (right : Option Tree) (rules : ChangeRules) : List Tree :=
  (matchRule hA hC rules cat).map (fun c => typeChanging rule c left right)

/-- rules.py:171-176 -/
def typeRaise (trees : List Tree) : List Tree :=
  trees.flatMap (fun t => (matchRule hA hC g.typeRaising t.cat).map (fun c => typeRaising c t))

/-- rules.py:195-200 -/
def typeChange (trees : List Tree) : List Tree := trees.flatMap (fun t => typeChangeCat hA hC .u t.cat t none g.unary)

/-- Looking up a category in a dictionary. -/
def lookupCat {T : Type} (d : List (BCat × T)) (c : BCat) : Option T := (d.find? (fun r => r.1.equals hA hC c)).map Prod.snd

/-- rules.py:202-225 -/
def leftPunct (left right : Tree) : Except PyErr (List Tree) :=
  let pass := if right.coordinatedOrTypeRaised then [] else [passThrough .lp right]
  let change := match lookupCat hA hC g.leftPunct left.cat with
    | none => []
    | some rules => typeChangeCat hA hC .lp right.cat left (some right) rules
  if (left.cat.atom = .comma ∨ left.cat.atom = .semicolon) ∧ right.coordinatedOrTypeRaised = false ∧ right.cat.atom.isPunct = false then
    match coordinate left right with
    | .error e => .error e
    | .ok t => .ok (pass ++ t :: change)
  else .ok (pass ++ change)

/-- rules.py:227-246 -/
def rightPunct (left right : Tree) : List Tree :=
  (if left.coordinatedOrTypeRaised then [] else [passThrough .rp left]) ++
  (if left.coordinated then [] else
    match lookupCat hA hC g.rightPunct right.cat with
    | none => []
    | some rules => typeChangeCat hA hC .rp left.cat left (some right) rules)

/-- rules.py:248-256 -/
def backwardApplication (left right : Tree) : Except PyErr (Option Tree) :=
  if right.cat.bwd && !left.coordinatedOrTypeRaised && !(g.eisner && right.bwdComp) then application ord left right false else .ok none

/-- rules.py:258-266 -/
def forwardApplication (left right : Tree) : Except PyErr (Option Tree) :=
  if left.cat.fwd && !right.coordinatedOrTypeRaised && !(g.eisner && left.fwdComp) then application ord left right true else .ok none

/-- rules.py:268-278 -/
def backwardComposition (left right : Tree) : Except PyErr (Option Tree) :=
  if left.cat.bwd && right.cat.bwd && !left.coordinated && !right.coordinated && !(g.eisner && right.bwdComp) then
    composition ord left right .bc else .ok none

/-- rules.py:280-288 -/
def forwardComposition (left right : Tree) : Except PyErr (Option Tree) :=
  if left.cat.fwd && right.cat.fwd && !(g.eisner && left.fwdComp) then composition ord left right .fc else .ok none

/-- rules.py:296 -/
def notNounArgument (c : BCat) : Bool :=
  match c.argument with
  | none => false
  | some a => decide (a.atom ≠ .n ∧ a.atom ≠ .np)

/-- rules.py:290-299 -/
def backwardCrossComposition (left right : Tree) : Except PyErr (Option Tree) :=
  if left.cat.fwd && right.cat.bwd && !right.coordinated && notNounArgument right.cat then composition ord left right .bx else .ok none

/-- rules.py:301-308 -/
def coordination (left right : Tree) : Except PyErr (Option Tree) :=
  if left.cat.atom = .conj ∧ right.coordinatedOrTypeRaised = false then
    match coordinate left right with
    | .error e => .error e
    | .ok t => .ok (some t)
  else .ok none

/-- rules.py:310-316 -/
def adjectivalConj (left right : Tree) : Option Tree :=
  if left.cat.atom = .conj ∧ right.cat.atom = .n then some (passThrough .adjConj right) else none

/-- rules.py:32-53 -/
inductive CatKind | atom | backward | forward | conj | punct
  deriving DecidableEq, Repr

/-- rules.py:41-53 -/
def CatKind.of (c : BCat) : CatKind :=
  if c.atom.isPunct then .punct
  else if c.atom = .conj then .conj
  else if c.bwd then .backward
  else if c.fwd then .forward
  else .atom

/-- rules.py:55-63 -/
def CatKind.isStandard : CatKind → Bool
  | .atom | .backward | .forward => true
  | _ => false

/-- `res = f(); if res is None: res = g()`, as in rules.py:140-142. -/
def orElse (f : Except PyErr (Option Tree)) (g : Except PyErr (Option Tree)) : Except PyErr (Option Tree) :=
  match f with
  | .ok none => g
  | r => r

/-- `results.append(res)` and the final filter of `None`, rules.py:169. -/
def asList (r : Except PyErr (Option Tree)) : Except PyErr (List Tree) :=
  match r with
  | .error e => .error e
  | .ok t => .ok t.toList

/-- rules.py:134-169 -/
def combineKinds (left right : Tree) : CatKind → CatKind → Except PyErr (List Tree)
  | .atom, .backward => asList (backwardApplication ord g left right)
  | .forward, .atom => asList (forwardApplication ord g left right)
  | .forward, .conj => asList (forwardApplication ord g left right)
  | .forward, .forward => asList (orElse (forwardApplication ord g left right) (forwardComposition ord g left right))
  | .forward, .backward => asList (orElse (backwardApplication ord g left right)
      (orElse (forwardApplication ord g left right) (backwardCrossComposition ord left right)))
  | .backward, .backward => asList (orElse (backwardApplication ord g left right) (backwardComposition ord g left right))
  | .conj, .atom =>
    match coordination left right with
    | .error e => .error e
    | .ok t => .ok (t.toList ++ (adjectivalConj left right).toList)
  | .conj, .backward => asList (orElse (backwardApplication ord g left right) (coordination left right))
  | .conj, .forward => asList (orElse (backwardApplication ord g left right) (coordination left right))
  | .punct, k => if k.isStandard then leftPunct hA hC g left right else .ok []
  | k, .punct => if k.isStandard then .ok (rightPunct hA hC g left right) else .ok []
  | _, _ => .ok []

/-- rules.py:126-169 -/
def combine (left right : Tree) : Except PyErr (List Tree) :=
  if g.instances.any (fun p => p.1.equals hA hC left.cat && p.2.equals hA hC right.cat) then
    combineKinds ord hA hC g left right (CatKind.of left.cat) (CatKind.of right.cat)
  else .ok []

end
end Bobcat
end Lambeq
