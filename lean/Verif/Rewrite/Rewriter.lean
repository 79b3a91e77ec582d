import Verif.Grammar.FunctorCache

/-!
# Box-level rewriting

Models `lambeq/rewrite/base.py` (whole file): `RewriteRule.__call__` (103-126), `SimpleRewriteRule`
(129-202) and its instances (205-247), `CoordinationRewriteRule` (250-284), `CurryRewriteRule` (287-321),
`CollapseDomainRewriteRule` (324-360), `Rewriter` (363-439), `UnknownWordsRewriteRule` (442-510).

Simplifications. A rule is the function `rule.__call__`: a box goes to `None`, a diagram (`to_diagram`
applied) or an exception. `str.lower` is a parameter `lower` of the model: nothing is assumed about it.
A `Container` of words is a list, of which only membership is used.
-/

namespace Lambeq
open Diagram

namespace Rewrite

/-- `RewriteRule.__call__`, base.py:103-126: `None`, or the rewritten box, or an exception. -/
abbrev BoxRule := Box → Except PyErr (Option GDiagram)

/-- base.py:126: `self.rewrite(box) if self.matches(box) else None`. -/
def ruleOf (matched : Box → Bool) (rewrite : Box → Except PyErr GDiagram) : BoxRule := fun b =>
  if matched b then (rewrite b).map some else .ok none

/-- The attribute `name` of the box classes: grammar.py:469 (boxes and words), 1440, 1567, 1679, 1744,
1849. -/
def boxName : Box → String
  | .gen n _ _ _ => n
  | .word n _ _ => n
  | .cup _ _ _ => "CUP"
  | .cap _ _ _ => "CAP"
  | .swap _ _ => "SWAP"
  | .spider _ _ _ => "SPIDER"
  | .daggered b => boxName b ++ "†"

/-! ## Simple rules -/

/-- base.py:164-169: the attributes of a `SimpleRewriteRule`. -/
structure Simple where
  cod : Ty
  template : GDiagram
  words : Option (List String)
  caseSensitive : Bool

/-- base.py:137 -/
def placeholderWord : String := "<PLACEHOLDER>"

/-- base.py:186-202 -/
def placeholder (c : Ty) : GDiagram := ofBox (.word placeholderWord c 0)

/-- base.py:171-174 -/
def Simple.matches (lower : String → String) (s : Simple) (b : Box) : Bool :=
  let word := if s.caseSensitive then boxName b else lower (boxName b)
  decide (b.cod = s.cod) && (match s.words with | none => true | some ws => decide (word ∈ ws))

/-- base.py:177-184: the functor that replaces placeholders by the word `name`. -/
def placeholderFunctor (name : String) : Functor where
  ob := fun n => [⟨n, 0⟩]
  ar := fun ar => if boxName ar = placeholderWord then .ok (ofBox (.word name ar.cod 0)) else .ok (ofBox ar)

/-- base.py:176-184 -/
def Simple.rewrite (s : Simple) (b : Box) : Except PyErr GDiagram :=
  (placeholderFunctor (boxName b)).onDiagram s.template

/-- A `SimpleRewriteRule` as a callable. -/
def Simple.rule (lower : String → String) (s : Simple) : BoxRule := ruleOf (s.matches lower) s.rewrite

/-- base.py:88, core/types.py:37-38 -/
def N : Ty := [⟨"n", 0⟩]
/-- base.py:89, core/types.py:40 -/
def S : Ty := [⟨"s", 0⟩]

/-- grammar.py:330-333: `a << b` is `a @ b.l`. -/
def over (a b : Ty) : Ty := a ++ Ty.l b
/-- grammar.py:335-338: `a >> b` is `a.r @ b`. -/
def under (a b : Ty) : Ty := Ty.r a ++ b

open GDiagram

/-- base.py:205-208 -/
def connectorRule : Except PyErr Simple := do
  let t ← mkCap S (Ty.l S) false
  .ok ⟨over S S, t, some ["and", "but", "however", "if", "that", "whether"], false⟩

/-- base.py:209-211 -/
def determinerRule : Except PyErr Simple := do
  let t ← mkCap N (Ty.l N) false
  .ok ⟨over N N, t, some ["a", "an", "the"], false⟩

/-- base.py:212-215 -/
def postadverbRule : Except PyErr Simple := do
  let cap ← mkCap (Ty.r (Ty.r N)) (Ty.r N) false
  let t ← andThen (placeholder (under S S))
    (tensor (tensor (Diagram.id (Ty.r S)) cap) (Diagram.id S))
  .ok ⟨under (under N S) (under N S), t, none, false⟩

/-- base.py:216-219 -/
def preadverbRule : Except PyErr Simple := do
  let cap ← mkCap (Ty.r N) N false
  let t ← andThen cap (tensor (tensor (Diagram.id (Ty.r N)) (placeholder (over S S))) (Diagram.id N))
  .ok ⟨over (under N S) (under N S), t, none, false⟩

/-- base.py:220-227 -/
def auxiliaryRule : Except PyErr Simple := do
  let p ← preadverbRule
  let t ← mkCap (pySlice p.cod none (some 2)) (pySlice p.cod (some 2) none) false
  .ok ⟨p.cod, t, some ["am", "are", "be", "been", "being", "is", "was", "were", "did", "do", "does", "'d",
    "had", "has", "have", "may", "might", "will"], false⟩

/-- base.py:228-231 -/
def prepositionalPhraseRule : Except PyErr Simple := do
  let cap ← mkCap (Ty.r (Ty.r N)) (Ty.r N) false
  let t ← andThen (placeholder (over (under S S) N))
    (tensor (tensor (Diagram.id (Ty.r S)) cap) (Diagram.id (S ++ Ty.l N)))
  .ok ⟨under (under N S) (over (under N S) N), t, none, false⟩

/-- base.py:233-234 -/
def nounLoop : Except PyErr GDiagram := do
  let cap ← mkCap (Ty.l N) (Ty.l (Ty.l N)) false
  let sw ← mkSwap (Ty.l N) (Ty.l (Ty.l N))
  let a ← andThen cap sw
  let cup ← mkCup (Ty.l N) N false
  andThen (tensor a (Diagram.id N)) (tensor (Diagram.id (Ty.l (Ty.l N))) cup)

/-- base.py:236, 243 -/
def relPronouns : List String := ["that", "which", "who", "whom", "whose"]

/-- base.py:235-240 -/
def objectRelPronounRule : Except PyErr Simple := do
  let cap ← mkCap (Ty.r N) N false
  let sp ← mkSpider N 1 2
  let sps ← mkSpider (Ty.l S) 0 1
  let loop ← nounLoop
  let t1 ← andThen cap (tensor (tensor (Diagram.id (Ty.r N)) sp) sps)
  let t ← andThen t1 (tensor (tensor (Diagram.id (Ty.r N ++ N)) loop) (Diagram.id (Ty.l S)))
  .ok ⟨Ty.r N ++ N ++ Ty.l (Ty.l N) ++ Ty.l S, t, some relPronouns, false⟩

/-- base.py:242-247 -/
def subjectRelPronounRule : Except PyErr Simple := do
  let cap ← mkCap (Ty.r N) N false
  let sp ← mkSpider N 1 2
  let sps ← mkSpider (Ty.l S) 0 1
  let t1 ← andThen cap (tensor (Diagram.id (Ty.r N)) sp)
  let t ← andThen t1 (tensor (tensor (Diagram.id (Ty.r N ++ N)) sps) (Diagram.id N))
  .ok ⟨Ty.r N ++ N ++ Ty.l S ++ N, t, some relPronouns, false⟩

/-! ## Coordination -/

/-- base.py:275, 281: `box.cod[:n], box.cod[n:2*n], box.cod[2*n:]`. -/
def thirds (c : Ty) : Ty × Ty × Ty :=
  let n := c.length / 3
  (pySlice c none (some (n : Int)), pySlice c (some (n : Int)) (some ((2 * n : Nat) : Int)),
    pySlice c (some ((2 * n : Nat) : Int)) none)

/-- base.py:272-277 -/
def coordMatches (words : List String) (b : Box) : Bool :=
  if decide (boxName b ∈ words) && decide (b.cod.length % 3 = 0) then
    let t := thirds b.cod
    decide (Ty.r t.2.2 = t.2.1) && decide (t.2.1 = Ty.l t.1)
  else false

/-- base.py:279-284 -/
def coordRewrite (b : Box) : Except PyErr GDiagram :=
  let t := thirds b.cod
  if ¬ (Ty.r t.2.2 = t.2.1 ∧ t.2.1 = Ty.l t.1) then .error .assertionError
  else do
    let c1 ← mkCap t.1 t.2.1 false
    let c2 ← mkCap t.2.1 t.2.2 false
    let sp ← mkSpider t.2.1 2 1
    andThen (tensor c1 c2) (tensor (tensor (Diagram.id t.1) sp) (Diagram.id t.2.2))

/-- `CoordinationRewriteRule(words)`, base.py:258-284. -/
def coordRule (words : Option (List String)) : BoxRule := ruleOf (coordMatches (words.getD ["and"])) coordRewrite

/-! ## Curry -/

/-- base.py:302-303 -/
def curryMatches (b : Box) : Bool :=
  match b.cod.head?, b.cod.getLast? with
  | some x, some y => decide (x.z ≠ 0) || decide (y.z ≠ 0)
  | _, _ => false

/-- base.py:307-309: the first loop. -/
def curryI : Ty → Nat
  | [] => 0
  | o :: t => if o.z > 0 then curryI t + 1 else 0

/-- base.py:310-312: the second loop, from the end; the final value of `j + 1` (so that it is a natural
number). -/
def curryJ1 (c : Ty) : Nat := c.length - (c.reverse.takeWhile (fun o => decide (o.z < 0))).length

/-- base.py:305-321 -/
def curryRewrite (b : Box) : Except PyErr GDiagram := do
  let i := curryI b.cod
  let j1 := curryJ1 b.cod
  let left := pySlice b.cod none (some (i : Int))
  let right := pySlice b.cod (some (j1 : Int)) none
  let dom := Ty.l left ++ b.dom ++ Ty.r right
  let nb := ofBox (.gen (boxName b) dom (pySlice b.cod (some (i : Int)) (some (j1 : Int))) 0)
  let nb ← if left ≠ [] then GDiagram.curry nb (left.length : Int) false else .ok nb
  if right ≠ [] then GDiagram.curry nb (right.length : Int) true else .ok nb

/-- `CurryRewriteRule()`, base.py:287-321. -/
def curryRule : BoxRule := ruleOf curryMatches curryRewrite

/-! ## Collapsing domains -/

/-- base.py:347-360 -/
def collapseRewrite (left : Bool) (b : Box) : Except PyErr GDiagram :=
  if left then do
    let cup ← mkCup b.dom (Ty.r b.dom) false
    andThen (tensor (Diagram.id b.dom) (ofBox (.gen (boxName b) [] (Ty.r b.dom ++ b.cod) 0)))
      (tensor cup (Diagram.id b.cod))
  else do
    let cup ← mkCup (Ty.l b.dom) b.dom false
    andThen (tensor (ofBox (.gen (boxName b) [] (b.cod ++ Ty.l b.dom) 0)) (Diagram.id b.dom))
      (tensor (Diagram.id b.cod) cup)

/-- `CollapseDomainRewriteRule(left)`, base.py:324-360. -/
def collapseRule (left : Bool) : BoxRule := ruleOf (fun b => !b.dom.isEmpty) (collapseRewrite left)

/-! ## Unknown words -/

/-- A vocabulary entry: a word, or a word with a type. -/
inductive Entry
  | name (w : String)
  | typed (w : String) (t : Ty)
  deriving DecidableEq

/-- base.py:469-472 -/
def unkMatches (vocab : List Entry) (b : Box) : Bool :=
  match b with
  | .word n c _ => decide (Entry.typed n c ∉ vocab) && decide (Entry.name n ∉ vocab)
  | _ => false

/-- base.py:474-475 -/
def unkRewrite (unk : String) (b : Box) : Except PyErr GDiagram := .ok (ofBox (.word unk b.cod 0))

/-- `UnknownWordsRewriteRule(vocabulary, unk_token)`. -/
def unkRule (vocab : List Entry) (unk : String) : BoxRule := ruleOf (unkMatches vocab) (unkRewrite unk)

/-- base.py:504-507: the generator fed to `Counter`. -/
def wordKeys (ignoreTypes : Bool) (ds : List GDiagram) : List Entry :=
  ds.flatMap (fun d => d.boxes.filterMap (fun b => match b with
    | .word n c _ => some (if ignoreTypes then Entry.name n else Entry.typed n c)
    | _ => none))

/-- `Counter(iterable).items()`: the distinct elements with their counts. -/
def counterItems (ks : List Entry) : List (Entry × Nat) :=
  ks.foldl (fun acc k =>
    if acc.any (fun p => decide (p.1 = k)) then acc.map (fun p => if p.1 = k then (p.1, p.2 + 1) else p)
    else acc ++ [(k, 1)]) []

/-- base.py:508-509 -/
def fromDiagramsVocab (ds : List GDiagram) (minFreq : Int) (ignoreTypes : Bool) : List Entry :=
  ((counterItems (wordKeys ignoreTypes ds)).filter (fun p => decide ((p.2 : Int) ≥ minFreq))).map (·.1)

/-- base.py:477-510 -/
def fromDiagrams (ds : List GDiagram) (minFreq : Int) (unk : String) (ignoreTypes : Bool) : BoxRule :=
  unkRule (fromDiagramsVocab ds minFreq ignoreTypes) unk

/-! ## The rewriter -/

/-- base.py:431-436 -/
def rewriterAr : List BoxRule → Box → Except PyErr GDiagram
  | [], b => .ok (ofBox b)
  | r :: rs, b => do
    match ← r b with
    | some d => .ok d
    | none => rewriterAr rs b

/-- base.py:405-407, 431-439: the functor `apply_rewrites`. -/
def rewriterFunctor (rules : List BoxRule) : Functor := ⟨fun n => [⟨n, 0⟩], rewriterAr rules⟩

/-- base.py:427-429: `Rewriter(rules)(diagram)` for a fresh rewriter. -/
def rewriter (rules : List BoxRule) (d : GDiagram) : Except PyErr GDiagram := (rewriterFunctor rules).onDiagram d

/-- A built-in simple rule as a callable (the module-level constants of base.py:205-247). -/
def builtin (lower : String → String) (s : Except PyErr Simple) : BoxRule := fun b => do
  let s ← s
  s.rule lower b

/-- base.py:378-384: `_available_rules`, in the order of the dict. -/
def availableRules (lower : String → String) : List (String × BoxRule) :=
  [("auxiliary", builtin lower auxiliaryRule), ("connector", builtin lower connectorRule),
   ("determiner", builtin lower determinerRule), ("postadverb", builtin lower postadverbRule),
   ("preadverb", builtin lower preadverbRule),
   ("prepositional_phrase", builtin lower prepositionalPhraseRule),
   ("coordination", coordRule none), ("curry", curryRule),
   ("object_rel_pronoun", builtin lower objectRelPronounRule),
   ("subject_rel_pronoun", builtin lower subjectRelPronounRule)]

/-- base.py:369-376: `_default_rules`. -/
def defaultRules (lower : String → String) : List BoxRule := ((availableRules lower).take 6).map (·.2)

/-- base.py:414-425: `add_rules`, on the current list of rules. -/
def addRules (lower : String → String) : List (String ⊕ BoxRule) → List BoxRule → Except PyErr (List BoxRule)
  | [], cur => .ok cur
  | .inr r :: rest, cur => addRules lower rest (cur ++ [r])
  | .inl n :: rest, cur =>
    match (availableRules lower).find? (fun p => p.1 == n) with
    | some p => addRules lower rest (cur ++ [p.2])
    | none => .error .valueError

/-- base.py:386-404: `Rewriter(rules)`; the result is the attribute `rules`. -/
def initRules (lower : String → String) : Option (List (String ⊕ BoxRule)) → Except PyErr (List BoxRule)
  | none => .ok (defaultRules lower)
  | some rs => addRules lower rs []

/-- A rewriter object: its rules, and the cache of its functor (grammar.py:2066-2090). -/
structure State where
  rules : List BoxRule
  cache : Functor.Cache

/-- Calling the rewriter object on a diagram. -/
def State.call (s : State) (d : GDiagram) : Except PyErr GDiagram × State :=
  let r := (rewriterFunctor s.rules).callDiagram d s.cache
  (r.1, { s with cache := r.2 })

end Rewrite
end Lambeq
