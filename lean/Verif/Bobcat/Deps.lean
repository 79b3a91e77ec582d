import Verif.Bobcat.Rules
import Verif.Bobcat.Lexicon
import Mathlib.Data.List.Sort

/-!
# Bobcat: dependencies and the result of a parse

Models `lambeq/bobcat/tree.py` 25-79 (`IndexedWord`, `Dependency`), 228-250, 273-347, 350-388, 391-431 (the parse trees with their
dependencies) and `lambeq/bobcat/parser.py` 203-310 (`ParseResult`).

Simplifications. The head and the filler of a dependency are given by their index; the words are kept at the leaves. The word of a leaf
(tree.py:239-244) is the one it was made with. Relations are values of a type that nothing depends on, plus `Relation.CONJ`.
-/

namespace Lambeq
namespace Bobcat

/-- lexicon.py:58-69 -/
inductive Rel
  | slot (r : Nat)
  | conj
  deriving DecidableEq, Repr

/-- tree.py:35-41 -/
structure Dep where
  rel : Rel
  head : Nat
  var : Nat
  uid : Nat
  filler : Option Nat
  deriving DecidableEq, Repr

/-- tree.py:43-48 -/
def Dep.move (d : Dep) (var uid : Nat) : Dep := { d with var := var, uid := uid }

/-- tree.py:69-75 -/
def Dep.fill (d : Dep) (v : Variable) : List Dep := v.fillers.map (fun f => ⟨d.rel, d.head, 0, d.uid, some f⟩)

/-- tree.py:50-67: `heads` is the word, or the fillers of the variable. -/
def generate (uid : Nat) (heads : List Nat) : BCat → List Dep
  | .atomic _ _ v r =>
    match r with
    | some k => heads.map (fun h => ⟨.slot k, h, v, uid, none⟩)
    | none => []
  | .slash _ res arg v r _ =>
    (match r with
    | some k => heads.map (fun h => ⟨.slot k, h, v, uid, none⟩)
    | none => []) ++ generate uid heads res ++ generate uid heads arg

/-- tree.py:228-237: the constructors of a parse tree with none, one and two children. -/
inductive DTree
  | leaf (word : String) (index : Nat) (t : Tree) (unfilled : List Dep)
  | un (t : Tree) (child : DTree) (unfilled : List Dep)
  | bin (t : Tree) (left right : DTree) (unfilled filled : List Dep)

namespace DTree

/-- The rule, the category and the variables. -/
def root : DTree → Tree
  | .leaf _ _ t _ => t
  | .un t _ _ => t
  | .bin t _ _ _ _ => t

/-- The attribute `unfilled_deps`. -/
def unfilled : DTree → List Dep
  | .leaf _ _ _ u => u
  | .un _ _ u => u
  | .bin _ _ _ u _ => u

/-- The attribute `filled_deps`; only binary combinators fill dependencies. -/
def filled : DTree → List Dep
  | .bin _ _ _ _ f => f
  | _ => []

/-- tree.py:287: the order of the dependencies; all those that are sorted have a filler. -/
def before (a b : Dep) : Prop := a.head < b.head ∨ (a.head = b.head ∧ a.filler.getD 0 ≤ b.filler.getD 0)

instance : DecidableRel before := fun a b => inferInstanceAs (Decidable (_ ∨ _))

/-- tree.py:287: the sort is stable. An attempt to compare `None.index` is the AttributeError. -/
def sortDeps (ds : List Dep) : Except PyErr (List Dep) :=
  if ds.all (fun d => d.filler.isSome) then .ok (ds.insertionSort before) else .error .attributeError

/-- `s.replace('[X]', '')`, tree.py:285. -/
def dropX : List Char → List Char
  | '[' :: 'X' :: ']' :: s => dropX s
  | c :: s => c :: dropX s
  | [] => []

/-- tree.py:273-288 -/
def depsAndTags : DTree → Except PyErr (List Dep × List (List Char))
  | .leaf _ _ t _ => .ok ([], [dropX t.cat.str])
  | .un _ child _ =>
    match child.depsAndTags with
    | .error e => .error e
    | .ok (ds, tags) =>
      match sortDeps ds with
      | .error e => .error e
      | .ok ds => .ok (ds, tags)
  | .bin _ left right _ filled =>
    match left.depsAndTags with
    | .error e => .error e
    | .ok (ds1, tags1) =>
      match right.depsAndTags with
      | .error e => .error e
      | .ok (ds2, tags2) =>
        match sortDeps (filled ++ ds1 ++ ds2) with
        | .error e => .error e
        | .ok ds => .ok (ds, tags1 ++ tags2)

/-! ## Making trees -/

/-- tree.py:295-300 -/
def lexical (cat : BCat) (word : String) (index : Nat) : Except PyErr DTree :=
  if cat.var = 0 then .error .assertionError
  else .ok (.leaf word index ⟨.l, cat, put (fun _ => none) cat.var ⟨[index], true⟩⟩ (generate 0 [index] cat))

/-- tree.py:303-318 -/
def coordination (cat : BCat) (left right : DTree) : Except PyErr DTree :=
  let vars := fun k => (right.root.varMap k).map (fun v => v.asFilled false)
  let made := fun ds => DTree.bin ⟨.conj, cat, vars⟩ left right ds []
  match right.root.headVar with
  | none => .ok (made right.unfilled)
  | some v =>
    if v.filled then
      match left.root.headVar with
      | none => .error .attributeError
      | some w =>
        match w.fillers with
        | [] => .error .indexError
        | h :: _ =>
          match cat.argument with
          | none => .error .attributeError
          | some a => .ok (made (right.unfilled ++ [⟨.conj, h, a.var, 0, none⟩]))
    else .ok (made right.unfilled)

/-- tree.py:333-341: the dependencies of a changed type. The argument of an atomic category is `None`. -/
def changedDeps (cat : BCat) (head : DTree) (uid : Nat) (replace : Bool) : Except PyErr (List Dep) :=
  if replace then
    match cat.argument with
    | none => .error .attributeError
    | some a =>
      match (if (BCat.slash '\\' sNP sNP 0 none 0).doesMatch cat then a.argument.map BCat.var else some a.var) with
      | none => .error .attributeError
      | some newVar =>
        if head.unfilled = [] then .ok []
        else
          match head.root.cat.argument with
          | none => .error .attributeError
          | some b => .ok ((head.unfilled.filter (fun d => d.var = b.var)).map (fun d => d.move newVar uid))
  else
    match head.root.headVar with
    | some v => .ok (generate uid v.fillers cat)
    | none => .ok []

/-- tree.py:321-347 -/
def changing (rule : Rule) (cat : BCat) (left : DTree) (right : Option DTree) (uid : Nat) (replace : Bool) : Except PyErr DTree :=
  let head := match rule, right with
    | .lp, some r => r
    | _, _ => left
  match changedDeps cat head uid replace with
  | .error e => .error e
  | .ok ds =>
    match right with
    | none => .ok (.un (typeChanging rule cat left.root none) left ds)
    | some r => .ok (.bin (typeChanging rule cat left.root (some r.root)) left r ds [])

/-- tree.py:350-372: `keepRight` tells which child is passed through. -/
def passing (rule : Rule) (left right : DTree) (keepRight : Bool) : DTree :=
  let through := if keepRight then right else left
  .bin (passThrough rule through.root) left right through.unfilled []

/-- tree.py:375-388; the attribute `type_raising_dep_var` of an atomic category is 0. -/
def raising (cat : BCat) (left : DTree) : DTree :=
  let var := match cat with
    | .slash _ _ _ _ _ tr => tr
    | .atomic .. => 0
  .un (typeRaising cat left.root) left (if var ≠ 0 then left.unfilled.map (fun d => d.move var d.uid) else [])

/-- tree.py:408-419 -/
def translated (trans : Nat → Option Nat) (ds : List Dep) : List (Dep × Nat) :=
  ds.filterMap (fun d => (trans d.var).map (fun v => (d, v)))

/-- tree.py:423-428 -/
def settle (vars : Nat → Option Variable) : List (Dep × Nat) → List Dep × List Dep
  | [] => ([], [])
  | (d, v) :: ds =>
    let (u, f) := settle vars ds
    match vars v with
    | some x => if x.filled then (u, d.fill x ++ f) else (d.move v d.uid :: u, f)
    | none => (d.move v d.uid :: u, f)

/-- tree.py:391-431 -/
def combining (rule : Rule) (cat : BCat) (left right : DTree) (st : UState) : DTree :=
  let t := binaryCombinator rule cat left.root right.root st
  let (u, f) := settle t.varMap (translated st.transL left.unfilled ++ translated st.transR right.unfilled)
  .bin t left right u f

/-! ## The result of a parse -/

/-- parser.py:235-237: the word of the leftmost leaf. -/
def firstWord : DTree → String
  | .leaf w _ _ _ => w
  | .un _ c _ => c.firstWord
  | .bin _ l _ _ _ => l.firstWord

end DTree

/-- parser.py:166-181: the trees of the cells that exist. -/
abbrev Cells (τ : Type) := Nat → Nat → Option (List τ)

/-- parser.py:227-237, from the word `n` on; `fuel` bounds the number of cells looked at. -/
def resultWords {τ : Type} (word : τ → String) (ch : Cells τ) : Nat → Nat → Except PyErr (List String)
  | 0, _ => .ok []
  | fuel + 1, n =>
    match ch n n with
    | none => .ok []
    | some [] => .error .indexError
    | some (t :: _) =>
      match resultWords word ch fuel (n + 1) with
      | .error e => .error e
      | .ok ws => .ok (word t :: ws)

/-- parser.py:238-241; the key `(0, -1)` is in no chart. -/
def rootTrees {τ : Type} (ch : Cells τ) : Nat → List τ
  | 0 => []
  | n + 1 => (ch 0 n).getD []

section
variable {τ S : Type} [LinearOrder S]

/-- parser.py:289-302: the best cell of the spans with `len` words that begin at `i` or later, `k` of them; the score to beat is `best`. -/
def bestAt (score : τ → S) (ch : Cells τ) (len : Nat) : Nat → Nat → S → Option (Nat × τ) → Except PyErr (Option (Nat × τ))
  | 0, _, _, found => .ok found
  | k + 1, i, best, found =>
    match ch i (i + len - 1) with
    | none => bestAt score ch len k (i + 1) best found
    | some [] => .error .indexError
    | some (t :: _) =>
      if best < score t then bestAt score ch len k (i + 1) (score t) (some (i, t))
      else bestAt score ch len k (i + 1) best found

/-- parser.py:288-304: the longest spans with a tree, among the words from `start` on, `size` of them; the result has the number of words,
the first word and the tree. -/
def longest (score : τ → S) (negInf : S) (ch : Cells τ) (start size : Nat) : Nat → Except PyErr (Option (Nat × Nat × τ))
  | 0 => .ok none
  | len + 1 =>
    match bestAt score ch (len + 1) (size - len) start negInf none with
    | .error e => .error e
    | .ok (some (i, t)) => .ok (some (len + 1, i, t))
    | .ok none => longest score negInf ch start size len

/-- parser.py:276-310, on the words from `start` on, `size` of them; `fuel` bounds the depth of the recursion. If there is no tree,
`result_start - 1` is a TypeError. -/
def skim (score : τ → S) (negInf : S) (deps : τ → Except PyErr (List Dep × List (List Char))) (ch : Cells τ) :
    Nat → Nat → Nat → Except PyErr (List Dep × List (List Char))
  | 0, _, _ => .ok ([], [])
  | fuel + 1, start, size =>
    if size = 0 then .ok ([], [])
    else
      match longest score negInf ch start size size with
      | .error e => .error e
      | .ok none => .error .typeError
      | .ok (some (len, i, t)) =>
        match skim score negInf deps ch fuel start (i - start) with
        | .error e => .error e
        | .ok (d1, t1) =>
          match deps t with
          | .error e => .error e
          | .ok (d2, t2) =>
            match skim score negInf deps ch fuel (i + len) (start + size - (i + len)) with
            | .error e => .error e
            | .ok (d3, t3) => .ok (d1 ++ d2 ++ d3, t1 ++ t2 ++ t3)

/-- parser.py:258-274, without the argument `tree`; `n` is the number of words. -/
def resultDeps (score : τ → S) (negInf : S) (deps : τ → Except PyErr (List Dep × List (List Char))) (ch : Cells τ) (n : Nat) :
    Except PyErr (List Dep × List (List Char)) :=
  match rootTrees ch n with
  | t :: _ => deps t
  | [] => skim score negInf deps ch (n + 1) 0 n

end

end Bobcat
end Lambeq
