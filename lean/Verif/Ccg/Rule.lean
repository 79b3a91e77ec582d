import Verif.Ccg.Cat
import Verif.Grammar.Structural

/-!
# CCG rules

Models `lambeq/text2diagram/ccg_rule.py` (class `CCGRule`, lines 37-389).
-/

namespace Lambeq
open Diagram GDiagram

/-- ccg_rule.py:42-59 -/
inductive Rule
  | unknown | lexical | unary | fa | ba | fc | bc | fx | bx | gfc | gbc | gfx | gbx | lp | rp
  | ftr | btr | conj
  deriving DecidableEq, Repr

namespace Rule

/-- ccg_rule.py:79-83 -/
def checkMatch (left right : Cat) : Except PyErr Unit :=
  if left = right then .ok () else .error .ruleUseError

/-- `assert new is not None` (ccg_rule.py:141,146,151,156). -/
def assertSome (o : Option Cat) : Except PyErr Cat :=
  match o with | some c => .ok c | none => .error .assertionError

/-- ccg_rule.py:119-169, after `left, right = dom`. -/
def resolveBin (rule : Rule) (left right cod : Cat) : Except PyErr (List Cat) :=
  match rule with
  | .fa => .ok [Cat.over cod right, right]
  | .ba => .ok [left, Cat.under cod left]
  | .fc => do
    let lr ← left.right
    let rl ← right.left
    checkMatch lr rl
    let cr ← cod.result
    let ca ← cod.argument
    .ok [Cat.over cr lr, Cat.over rl ca]
  | .bc => do
    let lr ← left.right
    let rl ← right.left
    checkMatch lr rl
    let ca ← cod.argument
    let cr ← cod.result
    .ok [Cat.under lr ca, Cat.under cr rl]
  | .fx => do
    let lr ← left.right
    let rr ← right.right
    checkMatch lr rr
    let cr ← cod.right
    let cl ← cod.left
    .ok [Cat.over cr lr, Cat.under rr cl]
  | .bx => do
    let ll ← left.left
    let rl ← right.left
    checkMatch ll rl
    let cr ← cod.right
    let cl ← cod.left
    .ok [Cat.over ll cr, Cat.under cl rl]
  | .gfc => do
    let ll ← left.left
    let lr ← left.right
    let p ← cod.replaceResult ll lr ['/']
    let newLeft ← assertSome p.2
    .ok [Cat.over newLeft lr, p.1]
  | .gbc => do
    let rl ← right.left
    let rr ← right.right
    let p ← cod.replaceResult rr rl ['\\']
    let newRight ← assertSome p.2
    .ok [p.1, Cat.under newRight rl]
  | .gfx => do
    let ll ← left.left
    let lr ← left.right
    let p ← cod.replaceResult ll lr ['\\', '|']
    let newLeft ← assertSome p.2
    .ok [Cat.over newLeft lr, p.1]
  | .gbx => do
    let rl ← right.left
    let rr ← right.right
    let p ← cod.replaceResult rr rl ['/', '|']
    let newRight ← assertSome p.2
    .ok [p.1, Cat.under newRight rl]
  | .lp => .ok [left, cod]
  | .rp => .ok [cod, right]
  | .conj =>
    if left.isConjoinable then .ok [Cat.over cod right, right]
    else if right.isConjoinable then .ok [left, Cat.under cod left]
    else .error .ruleUseError
  | _ => .error .assertionError

/-- ccg_rule.py:85-169 -/
def resolve (rule : Rule) (dom : List Cat) (cod : Cat) : Except PyErr (List Cat) :=
  match rule with
  | .unknown => .error .ruleUseError
  | .lexical => if dom.isEmpty then .ok [] else .error .assertionError
  | .unary => .ok [cod]
  | .btr => do
    let a ← cod.argument
    let b ← a.argument
    .ok [b]
  | .ftr => do
    let a ← cod.argument
    let b ← a.argument
    .ok [b]
  | rule =>
    match dom with
    | [left, right] => resolveBin rule left right cod
    | _ => .error .valueError

/-- ccg_rule.py:214-236: the rules with one premise. -/
def applyUn (rule : Rule) (dom : List Cat) (cod : Option Cat) : Except PyErr GDiagram :=
  match dom with
  | [x] =>
    if rule = .unary then .ok (Diagram.id x.toTy)
    else match cod with
      | none => .error .ruleUseError
      | some c => do
        let res ← c.result
        let result := res.toTy
        if rule = .btr then do
          let k ← mkCap (Ty.r result) result false
          .ok (tensor (Diagram.id x.toTy) k)
        else do
          let k ← mkCap result (Ty.l result) false
          .ok (tensor k (Diagram.id x.toTy))
  | _ => .error .ruleUseError

/-- ccg_rule.py:243-314: the rules with two premises. -/
def applyBin (rule : Rule) (left right : Cat) : Except PyErr GDiagram :=
  match rule with
  | .fa => do
    let lr ← left.result
    GDiagram.fa lr.toTy right.toTy
  | .ba => do
    let rr ← right.result
    GDiagram.ba left.toTy rr.toTy
  | .fc => do
    let ll ← left.left
    let lr ← left.right
    let rr ← right.right
    GDiagram.fc ll.toTy lr.toTy rr.toTy
  | .bc => do
    let ll ← left.left
    let lr ← left.right
    let rr ← right.right
    GDiagram.bc ll.toTy lr.toTy rr.toTy
  | .fx => do
    let ll ← left.left
    let lr ← left.right
    let rl ← right.left
    GDiagram.fx ll.toTy lr.toTy rl.toTy
  | .bx => do
    let lr ← left.right
    let ll ← left.left
    let rr ← right.right
    GDiagram.bx lr.toTy ll.toTy rr.toTy
  | .gfc => do
    let la ← left.argument
    let mid := la.toTy
    let lres ← left.result
    let c ← mkCup (Ty.l mid) mid false
    .ok (tensor (tensor (Diagram.id lres.toTy) c)
      (Diagram.id (pySlice right.toTy (some (mid.length : Int)) none)))
  | .gbc => do
    let ra ← right.argument
    let mid := ra.toTy
    let c ← mkCup mid (Ty.r mid) false
    let rres ← right.result
    .ok (tensor (tensor (Diagram.id (pySlice left.toTy none (some (-(mid.length : Int))))) c)
      (Diagram.id rres.toTy))
  | .gfx => do
    let ll ← left.left
    let mid := ll.toTy
    let lr ← left.right
    let ⟨l, join, r⟩ ← right.split lr
    let s ← mkSwap (mid ++ Ty.l join) l
    let c ← mkCup (Ty.l join) join false
    let d ← andThen (tensor s (Diagram.id join)) (tensor (Diagram.id (l ++ mid)) c)
    .ok (tensor d (Diagram.id r))
  | .gbx => do
    let rr ← right.right
    let mid := rr.toTy
    let rl ← right.left
    let ⟨l, join, r⟩ ← left.split rl
    let s ← mkSwap r (Ty.r join ++ mid)
    let c ← mkCup join (Ty.r join) false
    let d ← andThen (tensor (Diagram.id join) s) (tensor c (Diagram.id (mid ++ r)))
    .ok (tensor (Diagram.id l) d)
  | .lp => .ok (Diagram.id right.toTy)
  | .rp => .ok (Diagram.id left.toTy)
  | _ => .error .assertionError

/-- ccg_rule.py:171-314 -/
def apply (rule : Rule) (dom : List Cat) (cod : Option Cat) : Except PyErr GDiagram :=
  match rule with
  | .unknown => .error .ruleUseError
  | .lexical => .error .ruleUseError
  | .conj => .error .ruleUseError
  | .unary => applyUn .unary dom cod
  | .btr => applyUn .btr dom cod
  | .ftr => applyUn .ftr dom cod
  | rule =>
    match dom with
    | [left, right] => applyBin rule left right
    | _ => .error .ruleUseError

/-- ccg_rule.py:338-343 -/
def inferUn (x cod : Cat) : Except PyErr Rule :=
  if cod.isComplex then do
    let res ← cod.result
    if cod = Cat.over res (Cat.under res x) then .ok .ftr
    else if cod = Cat.under res (Cat.over res x) then .ok .btr
    else .ok .unary
  else .ok .unary

/-- The tests of ccg_rule.py:375-381: `some rule` when one of them returns. -/
def inferBack (left right cod ll lr rl rr : Cat) : Except PyErr (Option Rule) :=
  if right.isUnder then
    if left.isOver ∧ ll = rl ∧ cod = Cat.over rr lr then .ok (some .bx)
    else do
      let p ← left.replaceResult rl rr ['\\']
      if p = (cod, some rl) then .ok (some .gbc)
      else do
        let q ← left.replaceResult rl rr ['/', '|']
        if q = (cod, some rl) then .ok (some .gbx) else .ok none
  else .ok none

/-- The tests of ccg_rule.py:382-388. -/
def inferFwd (left right cod ll lr rl rr : Cat) : Except PyErr (Option Rule) :=
  if left.isOver then
    if right.isUnder ∧ lr = rr ∧ cod = Cat.under ll rl then .ok (some .fx)
    else do
      let p ← right.replaceResult lr ll ['/']
      if p = (cod, some lr) then .ok (some .gfc)
      else do
        let q ← right.replaceResult lr ll ['\\', '|']
        if q = (cod, some lr) then .ok (some .gfx) else .ok none
  else .ok none

/-- ccg_rule.py:363-389 -/
def inferComp (left right cod : Cat) : Except PyErr Rule :=
  if cod.isComplex ∧ left.isComplex ∧ right.isComplex then do
    let ll ← left.left
    let lr ← left.right
    let rl ← right.left
    let rr ← right.right
    let cl ← cod.left
    let cr ← cod.right
    if lr = rl ∧ cl = ll ∧ cr = rr ∧ cod.isOver ∧ left.isOver ∧ right.isOver then .ok .fc
    else if lr = rl ∧ cl = ll ∧ cr = rr ∧ cod.isUnder ∧ left.isUnder ∧ right.isUnder then .ok .bc
    else do
      match ← inferBack left right cod ll lr rl rr with
      | some r => .ok r
      | none =>
        match ← inferFwd left right cod ll lr rl rr with
        | some r => .ok r
        | none => .ok .unknown
  else .ok .unknown

/-- ccg_rule.py:345-389 -/
def inferBin (left right cod : Cat) : Except PyErr Rule :=
  if left = Cat.PUNC then
    if cod = Cat.under right right then .ok .conj else .ok .lp
  else if right = Cat.PUNC then
    if cod = Cat.over left left then .ok .conj else .ok .rp
  else if left = Cat.over cod right then .ok .fa
  else if right = Cat.under cod left then .ok .ba
  else if left = Cat.CONJ ∨ right = Cat.CONJ then .ok .conj
  else inferComp left right cod

/-- ccg_rule.py:316-389.  (`lr == rl and …` is evaluated before `cod.left`; since `cod` is complex
there, reading `cod.left` first cannot raise.) -/
def inferRule (dom : List Cat) (cod : Cat) : Except PyErr Rule :=
  match dom with
  | [] => .ok .lexical
  | [x] => inferUn x cod
  | [left, right] => inferBin left right cod
  | _ => .ok .unknown

end Rule
end Lambeq
