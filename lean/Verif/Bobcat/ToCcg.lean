import Verif.Bobcat.RulesTotal
import Verif.Ccg.TreeChange

/-!
# From Bobcat's parse trees to CCG trees

Models `BobcatParser._to_biclosed` and `BobcatParser._build_ccgtree` (`lambeq/text2diagram/model_based_reader/bobcat_parser.py` 277-315), with
the constructor of `CCGTree` (`lambeq/text2diagram/ccg_tree.py` 66-85), and relates the rules of Bobcat (`Bobcat/Rules.lean`) to those of
`CCGRule` (`Ccg/Rule.lean`).
-/

set_option linter.unusedVariables false
set_option linter.unusedSimpArgs false
set_option linter.unusedSectionVars false

namespace Lambeq
namespace Bobcat
open Lambeq.Rule (Licensed)
open Lambeq.Tree (Mode Derivation Opposed)

/-! ## Model -/

/-- Bobcat's parse tree with its children, tree.py:228-300; `Tree` holds the attributes that the rules look at. -/
inductive PT
  | leaf (word : String) (t : Tree)
  | un (t : Tree) (child : PT)
  | bin (t : Tree) (left right : PT)

/-- The attributes of the root. -/
def PT.root : PT → Tree
  | .leaf _ t => t
  | .un t _ => t
  | .bin t _ _ => t

/-- bobcat_parser.py:281-296: `str(cat.atom)` is the name of the atom (lexicon.py:27-42). -/
def atomType : Atom → Except PyErr Cat
  | .n => .ok Cat.NOUN
  | .np => .ok Cat.NP
  | .s => .ok (.atom "s")
  | .pp => .ok (.atom "p")
  | .conj => .ok Cat.CONJ
  | .none => .error .valueError
  | _ => .ok Cat.PUNC

/-- bobcat_parser.py:277-300; the assertion is that of ccg_type.py:117. -/
def toBiclosed : BCat → Except PyErr Cat
  | .atomic a _ _ _ => atomType a
  | .slash d r a _ _ _ =>
    match toBiclosed r with
    | .error e => .error e
    | .ok r' =>
      match toBiclosed a with
      | .error e => .error e
      | .ok a' => if d = '/' then .ok (.over r' a') else if d = '\\' then .ok (.under r' a') else .error .assertionError

/-- bobcat_parser.py:307-310, with ccg_rule.py:42-76: an unknown name is `UNKNOWN`. -/
def ccgRule : Rule → Lambeq.Rule
  | .adjConj => .fa
  | .none => .unknown
  | .l => .lexical
  | .u => .unary
  | .ba => .ba
  | .fa => .fa
  | .bc => .bc
  | .fc => .fc
  | .bx => .bx
  | .gbc => .gbc
  | .gfc => .gfc
  | .gbx => .gbx
  | .lp => .lp
  | .rp => .rp
  | .btr => .btr
  | .ftr => .ftr
  | .conj => .conj

/-- ccg_tree.py:73-77 -/
def arity : Lambeq.Rule → Nat
  | .lexical => 0
  | .unary | .ftr | .btr => 1
  | _ => 2

/-- ccg_tree.py:78-81 -/
def checkArity (r : Lambeq.Rule) (n : Nat) : Except PyErr Unit :=
  if r ≠ .unknown ∧ n ≠ arity r then .error .valueError else .ok ()

/-- bobcat_parser.py:302-315. The words are not empty. -/
def buildCcgtree : PT → Except PyErr Lambeq.Tree
  | .leaf w t =>
    match toBiclosed t.cat with
    | .error e => .error e
    | .ok ty =>
      match checkArity (ccgRule t.rule) 0 with
      | .error e => .error e
      | .ok _ => .ok (.leaf w ty)
  | .un t c =>
    match buildCcgtree c with
    | .error e => .error e
    | .ok c' =>
      match toBiclosed t.cat with
      | .error e => .error e
      | .ok ty =>
        match checkArity (ccgRule t.rule) 1 with
        | .error e => .error e
        | .ok _ => .ok (.un (ccgRule t.rule) ty c')
  | .bin t l r =>
    match buildCcgtree l with
    | .error e => .error e
    | .ok l' =>
      match buildCcgtree r with
      | .error e => .error e
      | .ok r' =>
        match toBiclosed t.cat with
        | .error e => .error e
        | .ok ty =>
          match checkArity (ccgRule t.rule) 2 with
          | .error e => .error e
          | .ok _ => .ok (.bin (ccgRule t.rule) ty l' r')

/-! ## Specification -/

/-- The type written by a category, without features: what a reader of the category expects. -/
inductive Writes : BCat → Cat → Prop
  | n {f v r} : Writes (.atomic .n f v r) (.atom "n")
  | np {f v r} : Writes (.atomic .np f v r) (.atom "np")
  | s {f v r} : Writes (.atomic .s f v r) (.atom "s")
  | pp {f v r} : Writes (.atomic .pp f v r) (.atom "p")
  | conj {f v r} : Writes (.atomic .conj f v r) (.atom "conj")
  | punct {a f v r} : a.isPunct = true → Writes (.atomic a f v r) (.atom "punc")
  | over {r a v l t x y} : Writes r x → Writes a y → Writes (.slash '/' r a v l t) (.over x y)
  | under {r a v l t x y} : Writes r x → Writes a y → Writes (.slash '\\' r a v l t) (.under x y)

/-- The words of a parse tree. -/
def PT.words : PT → List String
  | .leaf w _ => [w]
  | .un _ c => c.words
  | .bin _ l r => l.words ++ r.words

/-- The categories of the words. -/
def PT.lexicon : PT → List BCat
  | .leaf _ t => [t.cat]
  | .un _ c => c.lexicon
  | .bin _ l r => l.lexicon ++ r.lexicon

/-- The category is written with real atoms and the two slashes. -/
def Written (c : BCat) : Prop := ∃ x, Writes c x

section
variable (ord : BCat → List Nat) (hA : Atom → Feature → Int) (hC : Int → Int → Char → Int) (g : GrammarRules)

/-- The parse trees that the rules of the grammar build, as the chart parser does. -/
inductive PT.Derived : PT → Prop
  | leaf {w t} : t.rule = .l → PT.Derived (.leaf w t)
  | change {t c} : t ∈ typeChange hA hC g [c.root] → PT.Derived c → PT.Derived (.un t c)
  | raise {t c} : t ∈ typeRaise hA hC g [c.root] → PT.Derived c → PT.Derived (.un t c)
  | bin {t l r ts} : combine ord hA hC g l.root r.root = .ok ts → t ∈ ts → PT.Derived l → PT.Derived r → PT.Derived (.bin t l r)

/-- The categories in the grammar are written properly, and its type raising rules are instances of type raising; punctuation rules are listed
under punctuation. -/
structure GrammarRules.Proper : Prop where
  raising : ∀ r ∈ g.typeRaising, ∀ c ∈ r.2, ∃ x y, Writes r.1 x ∧ Writes c y ∧
    ((c.fwd = true ∧ Licensed .ftr [x] y) ∨ (c.fwd = false ∧ Licensed .btr [x] y))
  unary : ∀ r ∈ g.unary, ∀ c ∈ r.2, Written c
  left : ∀ r ∈ g.leftPunct, r.1.atom.isPunct = true ∧ ∀ q ∈ r.2, ∀ c ∈ q.2, Written c
  right : ∀ r ∈ g.rightPunct, r.1.atom.isPunct = true ∧ ∀ q ∈ r.2, ∀ c ∈ q.2, Written c

end

/-- The CCG tree with the same bracketing, the same words and the written types; the rules have the same names, but that the conjunction of
adjectives becomes an application. -/
inductive Mirrors : PT → Lambeq.Tree → Prop
  | leaf {w t x} : Writes t.cat x → Mirrors (.leaf w t) (.leaf w x)
  | un {t c x c'} : Writes t.cat x → Mirrors c c' → Mirrors (.un t c) (.un (ccgRule t.rule) x c')
  | bin {t l r x l' r'} : Writes t.cat x → Mirrors l l' → Mirrors r r' → Mirrors (.bin t l r) (.bin (ccgRule t.rule) x l' r')

/-- The parse tree is a single word. -/
def PT.IsWord (p : PT) : Prop := ∃ w t, p = .leaf w t

/-- A category imposed on the phrase can be unloaded on one of its words (with `any = false`: only a category `A/B`). -/
def PT.Headed : Bool → PT → Prop
  | _, .leaf _ _ => True
  | _, .un t c => t.rule = .u ∧ c.root.cat.dir = none ∧ c.Headed true
  | any, .bin t l r =>
    match t.rule with
    | .fa | .adjConj => l.Headed false
    | .ba => r.Headed true
    | .conj => True
    | .lp => r.Headed any
    | .rp => l.Headed any
    | .fc => any = false ∧ (l.root.rule = .ftr ∨ l.Headed false) ∧ r.Headed false
    | _ => False

/-- `X/X` or `X\X`, up to features. -/
def IsModifier (c : BCat) : Prop := ∃ x, Writes c (.over x x) ∨ Writes c (.under x x)

/-- The slashes of the two categories are opposite. -/
def OpposedCats (c d : BCat) : Prop := (c.fwd = true ∧ d.bwd = true) ∨ (c.bwd = true ∧ d.fwd = true)

/-- The phrase can be given the category `c` by a type changing rule. -/
def PT.Changeable (p : PT) (c : BCat) : Prop :=
  (∃ x, Writes c x ∧ Writes p.root.cat x) ∨
  (c.atom.isPunct = false ∧ p.Headed true ∧ (¬ OpposedCats c p.root.cat ∨ IsModifier c)) ∨
  ((∃ x, Writes c (.under x x)) ∧ p.Headed false ∧ p.root.cat.fwd = true)

/-- The conditions on a parse tree under which it is converted to a diagram: punctuation marks and connectives are single words,
type changing rules apply to phrases that have a head word, and generalised backward composition is used with a right category `S\Y`. -/
def PT.Fit : PT → Prop
  | .leaf _ t => t.cat.atom.isPunct = false
  | .un t c => c.Fit ∧ (t.rule = .u → c.Changeable t.cat)
  | .bin t l r =>
    match t.rule with
    | .lp => l.IsWord ∧ r.Fit ∧ ((∃ x, Writes t.cat x ∧ Writes r.root.cat x) ∨ (t.cat.atom.isPunct = false ∧ r.Headed true))
    | .rp => r.IsWord ∧ l.Fit ∧ ((∃ x, Writes t.cat x ∧ Writes l.root.cat x) ∨ (t.cat.atom.isPunct = false ∧ l.Headed true))
    | .conj | .adjConj => l.IsWord ∧ r.Fit
    | .gbc => l.Fit ∧ r.Fit ∧ ∀ x, r.root.cat.result = some x → x.atom = .s
    | _ => l.Fit ∧ r.Fit

/-- The words that are not removed as punctuation. -/
def PT.spoken : PT → List String
  | .leaf w _ => [w]
  | .un _ c => c.spoken
  | .bin t l r =>
    match t.rule with
    | .lp => r.spoken
    | .rp => l.spoken
    | _ => l.spoken ++ r.spoken

/-! ## Categories -/

/-- The type of a written shape. -/
def Shape.erase : Shape → Cat
  | .atomic a _ => match atomType a with | .ok x => x | .error _ => .empty
  | .slash d r a => if d = '/' then .over r.erase a.erase else .under r.erase a.erase

/-- Real atoms and the two slashes. -/
def Shape.Plain : Shape → Prop
  | .atomic a _ => a ≠ .none
  | .slash d r a => (d = '/' ∨ d = '\\') ∧ r.Plain ∧ a.Plain

theorem writes_iff (c : BCat) (x : Cat) : Writes c x ↔ c.exact.Plain ∧ c.exact.erase = x := by
  constructor
  · intro h
    induction h with
    | punct h => rename_i a f v r; cases a <;> simp_all [Atom.isPunct, BCat.exact, Shape.Plain, Shape.erase, atomType, Cat.PUNC]
    | over _ _ ih1 ih2 => simp [BCat.exact, Shape.Plain, Shape.erase, ih1, ih2]
    | under _ _ ih1 ih2 => simp [BCat.exact, Shape.Plain, Shape.erase, ih1, ih2]
    | _ => simp [BCat.exact, Shape.Plain, Shape.erase, atomType, Cat.NOUN, Cat.NP, Cat.CONJ]
  · induction c generalizing x with
    | atomic a f v r =>
      rintro ⟨h1, rfl⟩
      cases a <;> first
        | exact absurd rfl h1
        | exact .n
        | exact .np
        | exact .s
        | exact .pp
        | exact .conj
        | exact .punct rfl
    | slash d r a v l t ih1 ih2 =>
      rintro ⟨⟨rfl | rfl, h1, h2⟩, rfl⟩
      · exact .over (ih1 _ ⟨h1, rfl⟩) (ih2 _ ⟨h2, rfl⟩)
      · exact .under (ih1 _ ⟨h1, rfl⟩) (ih2 _ ⟨h2, rfl⟩)

theorem toBiclosed_eq {c : BCat} {x : Cat} (h : Writes c x) : toBiclosed c = .ok x := by
  induction h with
  | punct h => rename_i a f v r; cases a <;> simp_all [Atom.isPunct, toBiclosed, atomType, Cat.PUNC]
  | over _ _ ih1 ih2 => simp [toBiclosed, ih1, ih2]
  | under _ _ ih1 ih2 => simp [toBiclosed, ih1, ih2]
  | _ => rfl

theorem writes_of_toBiclosed {c : BCat} {x : Cat} (h : toBiclosed c = .ok x) : Writes c x := by
  induction c generalizing x with
  | atomic a f v r =>
    cases a <;> simp only [toBiclosed, atomType, Except.ok.injEq, reduceCtorEq] at h <;> subst h
    all_goals first
        | exact .n
        | exact .np
        | exact .s
        | exact .pp
        | exact .conj
        | exact .punct rfl
  | slash d r a v l t ih1 ih2 =>
    simp only [toBiclosed] at h
    split at h
    · cases h
    · rename_i r' hr
      split at h
      · cases h
      · rename_i a' ha
        split at h
        · rename_i hd; subst hd; cases h; exact .over (ih1 hr) (ih2 ha)
        · split at h
          · rename_i hd; subst hd; cases h; exact .under (ih1 hr) (ih2 ha)
          · cases h

/-- **C63 (categories).** A Bobcat category is converted to a type if and only if it is written with real atoms and the two slashes, and
then to the type it writes: features, variables and slots are forgotten, nothing else. -/
theorem C63_categories (c : BCat) (x : Cat) : toBiclosed c = .ok x ↔ Writes c x := ⟨writes_of_toBiclosed, toBiclosed_eq⟩

theorem erase_subst (f : Feature) (s : Shape) : (s.subst f).erase = s.erase := by
  induction s with
  | atomic a g => rfl
  | slash d r a h1 h2 => simp only [Shape.subst, Shape.erase, h1, h2]

theorem plain_subst (f : Feature) (s : Shape) : (s.subst f).Plain ↔ s.Plain := by
  induction s with
  | atomic a g => exact Iff.rfl
  | slash d r a h1 h2 => simp only [Shape.subst, Shape.Plain, h1, h2]

theorem agree_erase {c d : BCat} (h : Agree c d) : c.exact.erase = d.exact.erase := by
  induction h with
  | atom => rfl
  | s => rfl
  | slash _ _ h1 h2 => simp only [BCat.exact, Shape.erase, h1, h2]

/-- **C63 (unification).** Two categories that unify are converted to the same type. -/
theorem C63_unified (c d : BCat) (h : Agree c d) (x : Cat) : toBiclosed c = .ok x ↔ toBiclosed d = .ok x := by
  rw [C63_categories, C63_categories, writes_iff, writes_iff, agree_erase h]
  have : c.exact.Plain ↔ d.exact.Plain := by
    clear x
    induction h with
    | atom => exact Iff.rfl
    | s => exact Iff.rfl
    | slash _ _ h1 h2 => simp only [BCat.exact, Shape.Plain, h1, h2]
  rw [this]

theorem plain_real {c : BCat} (h : c.exact.Plain) : c.Real := by
  induction c with
  | atomic a f v r => exact h
  | slash d r a v l t h1 h2 => exact ⟨h1 h.2.1, h2 h.2.2⟩

theorem punct_erase {c : BCat} (h : c.atom.isPunct = true) : c.exact.erase = Cat.PUNC := by
  cases c with
  | atomic a f v r => cases a <;> simp_all [BCat.atom, Atom.isPunct, BCat.exact, Shape.erase, atomType]
  | slash => simp [BCat.atom, Atom.isPunct] at h

theorem conj_erase {c : BCat} (h : c.atom = .conj) : c.exact.erase = Cat.CONJ := by
  cases c with
  | atomic a f v r => cases h; rfl
  | slash => simp [BCat.atom] at h

/-! ## Rules -/

/-- The result of every prescribed step is written properly. -/
theorem prescribed_plain {r : Rule} {l rr : BCat} {s : Shape} (h : Prescribed r l rr s) (h1 : l.exact.Plain) (h2 : rr.exact.Plain) : s.Plain := by
  cases h <;> simp_all [BCat.exact, Shape.Plain, plain_subst, Shape.subst]

theorem plug_two (b c : Cat) : Cat.plug [(true, c)] b = .over b c := rfl

/-- **C63 (rules).** Whatever Bobcat's rules prescribe, but for the two conjunction rules, is an instance of the CCG rule with the same
name, on the converted types. -/
theorem C63_rules (r : Rule) (l rr : BCat) (s : BCat) (h : Prescribed r l rr s.exact) (hr : r ≠ .conj ∧ r ≠ .adjConj) (x y z : Cat)
    (hx : toBiclosed l = .ok x) (hy : toBiclosed rr = .ok y) (hz : toBiclosed s = .ok z) : Licensed (ccgRule r) [x, y] z := by
  obtain ⟨p1, rfl⟩ := (writes_iff _ _).1 (writes_of_toBiclosed hx)
  obtain ⟨p2, rfl⟩ := (writes_iff _ _).1 (writes_of_toBiclosed hy)
  obtain ⟨p3, rfl⟩ := (writes_iff _ _).1 (writes_of_toBiclosed hz)
  generalize s.exact = sh at h
  cases h with
  | fa ha hg =>
    simp only [erase_subst, BCat.exact, Shape.erase, if_true, ← agree_erase ha]; exact .fa _ _
  | ba ha hg =>
    simp only [erase_subst, BCat.exact, Shape.erase, if_true, agree_erase ha]; exact .ba _ _
  | fc ha hg =>
    simp only [erase_subst, BCat.exact, Shape.erase, if_true, ← agree_erase ha]; exact .fc _ _ _
  | bc ha hg =>
    simp only [erase_subst, BCat.exact, Shape.erase, agree_erase ha, Char.reduceEq, if_false]; exact .bc _ _ _
  | bx ha hg =>
    simp only [erase_subst, BCat.exact, Shape.erase, agree_erase ha, Char.reduceEq, if_false, if_true]; exact .bx _ _ _
  | gfc2 ha hg =>
    simp only [erase_subst, BCat.exact, Shape.erase, if_true, ← agree_erase ha]
    exact .gfc _ _ _ [(true, _)] (by simp)
  | gfc3 ha hg =>
    simp only [erase_subst, BCat.exact, Shape.erase, if_true, ← agree_erase ha]
    exact .gfc _ _ _ [(true, _), (true, _)] (by simp)
  | gbx2 ha hg =>
    simp only [erase_subst, BCat.exact, Shape.erase, if_true, agree_erase ha, Char.reduceEq, if_false]
    exact .gbx _ _ _ [(true, _)]
  | gbx3 ha hg =>
    simp only [erase_subst, BCat.exact, Shape.erase, if_true, agree_erase ha, Char.reduceEq, if_false]
    exact .gbx _ _ _ [(true, _), (true, _)]
  | lp hp => rw [punct_erase hp]; exact .lp _
  | rp hp => rw [punct_erase hp]; exact .rp _
  | conj => exact absurd rfl hr.1
  | adjConj => exact absurd rfl hr.2

/-! ## Trees -/

section
variable (ord : BCat → List Nat) (hA : Atom → Feature → Int) (hC : Int → Int → Char → Int) (g : GrammarRules)

theorem instance_erase {s t : Shape} (h : Instance s t) : s.erase = t.erase := by
  induction h with
  | same => rfl
  | refine => rfl
  | slash _ _ h1 h2 => simp only [Shape.erase, h1, h2]

theorem shape_erase {c d : BCat} (h : c.shape = d.shape) : c.exact.erase = d.exact.erase := by
  induction c generalizing d with
  | atomic a f v r =>
    cases d with
    | atomic => simp only [BCat.shape, Shape.atomic.injEq] at h; simp only [BCat.exact, Shape.erase, h.1]
    | slash => simp [BCat.shape] at h
  | slash dd r a v l t ih1 ih2 =>
    cases d with
    | atomic => simp [BCat.shape] at h
    | slash => simp only [BCat.shape, Shape.slash.injEq] at h; simp only [BCat.exact, Shape.erase, h.1, ih1 h.2.1, ih2 h.2.2]

theorem matchRule_key {T : Type} {rules : List (BCat × List T)} {c : BCat} {x : T} (h : x ∈ matchRule hA hC rules c) :
    ∃ r ∈ rules, x ∈ r.2 ∧ (r.1.equals hA hC c = true ∨ r.1.doesMatch c = true) := by
  unfold matchRule at h
  split at h
  · rename_i r hr; exact ⟨r, List.mem_of_find?_eq_some hr, h, .inl (by simpa using List.find?_some hr)⟩
  · split at h
    · rename_i r hr; exact ⟨r, List.mem_of_find?_eq_some hr, h, .inr (by simpa using List.find?_some hr)⟩
    · simp at h

theorem key_erase {k c : BCat} (hk : k.Real) (hc : c.Real) (h : k.equals hA hC c = true ∨ k.doesMatch c = true) :
    k.exact.erase = c.exact.erase := by
  rcases h with h | h
  · exact shape_erase ((C47_equals_iff hA hC k c hk hc).1 h)
  · exact instance_erase ((C47_matches_iff k c hk hc).1 h)

/-- What a step of the parser is: prescribed, given by the type changing rules, or a generalised backward composition. -/
theorem combine_cases {left right t : Tree} {ts : List Tree} (hg : GrammarRules.Proper g) (hl : left.cat.exact.Plain)
    (hr : right.cat.exact.Plain) (h : combine ord hA hC g left right = .ok ts) (ht : t ∈ ts) :
    t.cat.exact.Plain ∧ (Prescribed t.rule left.cat right.cat t.cat.exact ∨ (t.rule = .lp ∧ left.cat.exact.erase = Cat.PUNC) ∨
      (t.rule = .rp ∧ right.cat.exact.erase = Cat.PUNC) ∨
      (t.rule = .gbc ∧ t.cat = left.cat ∧ ∃ (x : BCat) (w : Cat), right.cat.result = some x ∧
        right.cat.exact.erase = .under x.exact.erase (.atom "s") ∧ left.cat.exact.erase = .under (.under (.atom "s") (.atom "s")) w)) := by
  have hreal : ∀ {c : BCat}, c.atom.isPunct = true → c.Real := by
    intro c hc
    cases c with
    | atomic a f v r => intro h; subst h; simp [BCat.atom, Atom.isPunct] at hc
    | slash => simp [BCat.atom, Atom.isPunct] at hc
  rcases (C48_combine ord hA hC g left right ts (plain_real hl) (plain_real hr) h).1 t ht with ⟨h1 | h1 | h1 | h1, _⟩
  · exact ⟨prescribed_plain h1 hl hr, .inl h1⟩
  · obtain ⟨h1, q, hq, he, hm⟩ := h1
    obtain ⟨q', hq', hm', _⟩ := matchRule_key hA hC hm
    obtain ⟨hp, hw⟩ := hg.left q hq
    obtain ⟨x, hx⟩ := hw q' hq' _ hm'
    refine ⟨((writes_iff _ _).1 hx).1, .inr (.inl ⟨h1, ?_⟩)⟩
    rw [← key_erase hA hC (hreal hp) (plain_real hl) (.inl he), punct_erase hp]
  · obtain ⟨h1, q, hq, he, hm⟩ := h1
    obtain ⟨q', hq', hm', _⟩ := matchRule_key hA hC hm
    obtain ⟨hp, hw⟩ := hg.right q hq
    obtain ⟨x, hx⟩ := hw q' hq' _ hm'
    refine ⟨((writes_iff _ _).1 hx).1, .inr (.inr (.inl ⟨h1, ?_⟩))⟩
    rw [← key_erase hA hC (hreal hp) (plain_real hr) (.inl he), punct_erase hp]
  · obtain ⟨h1, b1, b2, hgb⟩ := h1
    obtain ⟨_, e2, x, y, v, l, tt, y', z, v1, l1, t1, w, v2, l2, t2, f, hcr, hcl, hy, hz, ha, _⟩ :=
      gbc_shape ord left right t (plain_real hl) (plain_real hr) b1 b2 hgb
    refine ⟨by rw [e2]; exact hl, .inr (.inr (.inr ⟨h1, e2, x, w.exact.erase, ?_, ?_, ?_⟩))⟩
    · rw [hcr]; rfl
    · rw [hcr]
      simp only [BCat.exact, Shape.erase, Char.reduceEq, if_false, ← agree_erase ha, hy]
      rfl
    · rw [hcl]
      simp only [BCat.exact, Shape.erase, Char.reduceEq, if_false, hy, hz]
      rfl

theorem change_cases {c t : Tree} (hg : GrammarRules.Proper g) (h : t ∈ typeChange hA hC g [c]) : t.rule = .u ∧ t.cat.exact.Plain := by
  simp only [typeChange, List.flatMap_cons, List.flatMap_nil, List.append_nil, typeChangeCat] at h
  obtain ⟨k, hk, rfl⟩ := List.mem_map.1 h
  obtain ⟨q, hq, hm, _⟩ := matchRule_key hA hC hk
  obtain ⟨x, hx⟩ := hg.unary q hq _ hm
  exact ⟨rfl, ((writes_iff _ _).1 hx).1⟩

theorem raise_cases {c t : Tree} (hg : GrammarRules.Proper g) (hc : c.cat.exact.Plain) (h : t ∈ typeRaise hA hC g [c]) :
    t.cat.exact.Plain ∧ (t.rule = .ftr ∨ t.rule = .btr) ∧ Licensed (ccgRule t.rule) [c.cat.exact.erase] t.cat.exact.erase := by
  simp only [typeRaise, List.flatMap_cons, List.flatMap_nil, List.append_nil] at h
  obtain ⟨k, hk, rfl⟩ := List.mem_map.1 h
  obtain ⟨q, hq, hm, he⟩ := matchRule_key hA hC hk
  obtain ⟨x, y, hx, hy, hl⟩ := hg.raising q hq _ hm
  obtain ⟨p1, rfl⟩ := (writes_iff _ _).1 hx
  obtain ⟨p2, rfl⟩ := (writes_iff _ _).1 hy
  rw [key_erase hA hC (plain_real p1) (plain_real hc) he] at hl
  rcases hl with ⟨hf, hl⟩ | ⟨hf, hl⟩
  · exact ⟨p2, .inl (by simp [typeRaising, hf]), by simpa [typeRaising, hf, ccgRule] using hl⟩
  · exact ⟨p2, .inr (by simp [typeRaising, hf]), by simpa [typeRaising, hf, ccgRule] using hl⟩

theorem prescribed_rule {r : Rule} {l rr : BCat} {s : Shape} (h : Prescribed r l rr s) : arity (ccgRule r) = 2 ∧ r ≠ .ftr := by
  cases h <;> exact ⟨rfl, by simp⟩

/-- The built tree. -/
def PT.tree : PT → Lambeq.Tree
  | .leaf w t => .leaf w t.cat.exact.erase
  | .un t c => .un (ccgRule t.rule) t.cat.exact.erase c.tree
  | .bin t l r => .bin (ccgRule t.rule) t.cat.exact.erase l.tree r.tree

theorem tree_ty (p : PT) : p.tree.ty = p.root.cat.exact.erase := by cases p <;> rfl

theorem build_tree {p : PT} (hg : GrammarRules.Proper g) (hp : p.Derived ord hA hC g) (hl : ∀ c ∈ p.lexicon, Written c) :
    p.root.cat.exact.Plain ∧ buildCcgtree p = .ok p.tree ∧ Mirrors p p.tree := by
  have wr : ∀ {c : BCat}, c.exact.Plain → Writes c c.exact.erase := fun h => (writes_iff _ _).2 ⟨h, rfl⟩
  induction hp with
  | @leaf w t ht =>
    obtain ⟨x, hx⟩ := hl t.cat (by simp [PT.lexicon])
    obtain ⟨h1, rfl⟩ := (writes_iff _ _).1 hx
    refine ⟨h1, ?_, .leaf hx⟩
    simp [buildCcgtree, toBiclosed_eq hx, ht, ccgRule, checkArity, arity, PT.tree]
  | @change t c ht hc ih =>
    obtain ⟨h1, h2, h3⟩ := ih hl
    obtain ⟨e1, e2⟩ := change_cases hA hC g hg ht
    refine ⟨e2, ?_, .un (wr e2) h3⟩
    simp [buildCcgtree, h2, toBiclosed_eq (wr e2), e1, ccgRule, checkArity, arity, PT.tree]
  | @raise t c ht hc ih =>
    obtain ⟨h1, h2, h3⟩ := ih hl
    obtain ⟨e2, e1, _⟩ := raise_cases hA hC g hg h1 ht
    refine ⟨e2, ?_, .un (wr e2) h3⟩
    rcases e1 with e1 | e1 <;> simp [buildCcgtree, h2, toBiclosed_eq (wr e2), e1, ccgRule, checkArity, arity, PT.tree]
  | @bin t l r ts ho ht hl' hr' ihl ihr =>
    obtain ⟨h1, h2, h3⟩ := ihl (fun c hc => hl c (List.mem_append_left _ hc))
    obtain ⟨k1, k2, k3⟩ := ihr (fun c hc => hl c (List.mem_append_right _ hc))
    obtain ⟨e2, e1⟩ := combine_cases ord hA hC g hg h1 k1 ho ht
    refine ⟨e2, ?_, .bin (wr e2) h3 k3⟩
    have ha : arity (ccgRule t.rule) = 2 := by
      rcases e1 with e1 | ⟨e1, _⟩ | ⟨e1, _⟩ | ⟨e1, _⟩
      · exact (prescribed_rule e1).1
      all_goals rw [e1]; rfl
    simp [buildCcgtree, h2, k2, toBiclosed_eq (wr e2), checkArity, ha, PT.tree]

theorem mirrors_leaves {p : PT} {t : Lambeq.Tree} (h : Mirrors p t) : t.leaves = p.words := by
  induction h with
  | leaf => rfl
  | un _ _ ih => exact ih
  | bin _ _ _ h1 h2 => simp only [Lambeq.Tree.leaves, PT.words, h1, h2]

/-- **C63 (trees).** For every grammar with properly written categories, every parse tree that its rules build from properly written
lexical categories is converted without error, into the CCG tree with the same bracketing, words, rules and types. -/
theorem C63_build (hg : GrammarRules.Proper g) (p : PT) (hp : p.Derived ord hA hC g) (hl : ∀ c ∈ p.lexicon, Written c) :
    ∃ t, buildCcgtree p = .ok t ∧ Mirrors p t ∧ t.leaves = p.words ∧ Writes p.root.cat t.ty := by
  obtain ⟨h1, h2, h3⟩ := build_tree ord hA hC g hg hp hl
  exact ⟨_, h2, h3, mirrors_leaves h3, by rw [tree_ty]; exact (writes_iff _ _).2 ⟨h1, rfl⟩⟩

theorem derived_ftr {p : PT} (hg : GrammarRules.Proper g) (hp : p.Derived ord hA hC g) (hl : ∀ c ∈ p.lexicon, Written c)
    (hf : p.root.rule = .ftr) : ∃ t c s, p = .un t c ∧ p.tree = .un .ftr (.over s (.under s c.tree.ty)) c.tree := by
  cases hp with
  | leaf h => rw [show (PT.leaf _ _).root.rule = _ from h] at hf; cases hf
  | change h hc => rw [show (PT.un _ _).root.rule = _ from (change_cases hA hC g hg h).1] at hf; cases hf
  | @raise t c h hc =>
    have hp1 := (build_tree ord hA hC g hg hc hl).1
    obtain ⟨_, _, hL⟩ := raise_cases hA hC g hg hp1 h
    have hf' : t.rule = .ftr := hf
    rw [hf'] at hL
    generalize hy : t.cat.exact.erase = y at hL
    rw [← tree_ty] at hL
    generalize hx : c.tree.ty = x at hL
    simp only [ccgRule] at hL
    cases hL with
    | ftr x s => exact ⟨t, c, s, rfl, by simp [PT.tree, hf', ccgRule, hy, hx]⟩
  | @bin t l r ts ho ht hl' hr' =>
    have h1 := (build_tree ord hA hC g hg hl' (fun c hc => hl c (List.mem_append_left _ hc))).1
    have h2 := (build_tree ord hA hC g hg hr' (fun c hc => hl c (List.mem_append_right _ hc))).1
    have hf' : t.rule = .ftr := hf
    rcases (combine_cases ord hA hC g hg h1 h2 ho ht).2 with e1 | ⟨e1, _⟩ | ⟨e1, _⟩ | ⟨e1, _⟩
    · exact absurd hf' (prescribed_rule e1).2
    all_goals rw [hf'] at e1; cases e1

theorem noEmpty_erase {s : Shape} (h : s.Plain) : s.erase.NoEmpty := by
  induction s with
  | atomic a f => cases a <;> first | exact absurd rfl h | trivial
  | slash d r a h1 h2 =>
    obtain ⟨rfl | rfl, p, q⟩ := h
    · exact ⟨h1 p, h2 q⟩
    · exact ⟨h1 p, h2 q⟩

theorem not_punct {c : BCat} (h : c.atom.isPunct = false) (hp : c.exact.Plain) : c.exact.erase ≠ Cat.PUNC := by
  cases c with
  | atomic a f v r => cases a <;> simp_all [BCat.atom, Atom.isPunct, BCat.exact, Shape.erase, atomType, Cat.PUNC, Cat.NOUN, Cat.NP, Cat.CONJ, Shape.Plain]
  | slash d r a v l t => simp only [BCat.exact, Shape.erase]; split <;> simp [Cat.PUNC]

theorem opposed_cats {c d : BCat} (h : Opposed c.exact.erase d.exact.erase) (hc : c.exact.Plain) (hd : d.exact.Plain) : OpposedCats c d := by
  have hat : ∀ (a : Atom) (f v r) (x y : Cat), (BCat.atomic a f v r).exact.erase ≠ .over x y ∧ (BCat.atomic a f v r).exact.erase ≠ .under x y := by
    intro a f v r x y
    cases a <;> simp [BCat.exact, Shape.erase, atomType, Cat.PUNC, Cat.NOUN, Cat.NP, Cat.CONJ]
  cases c with
  | atomic => rcases h with ⟨_, _, _, _, h, _⟩ | ⟨_, _, _, _, h, _⟩
              · exact absurd h (hat ..).1
              · exact absurd h (hat ..).2
  | slash d1 r1 a1 v1 l1 t1 =>
    cases d with
    | atomic => rcases h with ⟨_, _, _, _, _, h⟩ | ⟨_, _, _, _, _, h⟩
                · exact absurd h (hat ..).2
                · exact absurd h (hat ..).1
    | slash d2 r2 a2 v2 l2 t2 =>
      obtain ⟨rfl | rfl, _, _⟩ := hc <;> obtain ⟨rfl | rfl, _, _⟩ := hd <;>
        simp_all [Opposed, BCat.exact, Shape.erase, OpposedCats, BCat.fwd, BCat.bwd, BCat.dir]

theorem fwd_erase {c : BCat} (h : c.fwd = true) : ∃ a b, c.exact.erase = .over a b := by
  obtain ⟨x, y, v, l, t, rfl⟩ := fwd_iff.1 h
  exact ⟨_, _, by simp [BCat.exact, Shape.erase]; exact ⟨rfl, rfl⟩⟩

theorem modifier_erase {c : BCat} (h : IsModifier c) : ∃ x, c.exact.erase = .over x x ∨ c.exact.erase = .under x x := by
  obtain ⟨x, h | h⟩ := h
  · exact ⟨x, .inl ((writes_iff _ _).1 h).2⟩
  · exact ⟨x, .inr ((writes_iff _ _).1 h).2⟩

/-- The modes of the built tree. -/
structure Modes (p : PT) : Prop where
  fixed : Derivation .fixed p.tree
  any : p.Headed true → Derivation .any p.tree
  fwd : p.Headed false → Derivation .fwd p.tree
  child : ∀ t c, p = .un t c → Derivation .fixed c.tree

theorem atomic_erase {c : BCat} (h : c.dir = none) : c.exact.erase.isComplex = false := by
  cases c with
  | atomic a f v r => cases a <;> rfl
  | slash => simp [BCat.dir] at h

theorem writes_same {c d : BCat} (h : ∃ x, Writes c x ∧ Writes d x) : c.exact.erase = d.exact.erase := by
  obtain ⟨x, h1, h2⟩ := h
  rw [((writes_iff _ _).1 h1).2, ((writes_iff _ _).1 h2).2]

/-- A step whose types are an instance of the rule, over children with their own types. -/
theorem step_fixed {t : Tree} {l r : PT} (hL : Licensed (ccgRule t.rule) [l.root.cat.exact.erase, r.root.cat.exact.erase] t.cat.exact.erase)
    (hr : r.root.cat.exact.Plain) (hn : t.rule ≠ .lp ∧ t.rule ≠ .rp) (ml : Derivation .fixed l.tree) (mr : Derivation .fixed r.tree) :
    Derivation .fixed (PT.bin t l r).tree := by
  refine .bin _ _ _ _ (by rw [tree_ty, tree_ty]; exact hL) ?_ (by rw [tree_ty]; exact noEmpty_erase hr) ml mr
  obtain ⟨h1, h2⟩ := hn
  cases hh : t.rule <;> simp_all [ccgRule]

theorem fit_modes {p : PT} (hg : GrammarRules.Proper g) (hp : p.Derived ord hA hC g) (hl : ∀ c ∈ p.lexicon, Written c) (hfit : p.Fit) :
    Modes p := by
  induction hp with
  | @leaf w t ht =>
    obtain ⟨x, hx⟩ := hl t.cat (by simp [PT.lexicon])
    have hpl := ((writes_iff _ _).1 hx).1
    exact ⟨.settle _ _ (.leaf _ _) (not_punct hfit hpl), fun _ => .leaf _ _, fun _ => .weaken _ (.leaf _ _), fun _ _ h => by cases h⟩
  | @change t c ht hc ih =>
    obtain ⟨m1, m2, m3, _⟩ := ih hl hfit.1
    obtain ⟨e1, e2⟩ := change_cases hA hC g hg ht
    have hcp := (build_tree ord hA hC g hg hc hl).1
    have htree : (PT.un t c).tree = .un .unary t.cat.exact.erase c.tree := by simp [PT.tree, e1, ccgRule]
    have hany : ∀ b, (PT.un t c).Headed b → Derivation .any (PT.un t c).tree := by
      rintro b ⟨_, h2, h3⟩
      rw [htree]
      exact .changeAtomic _ _ (m2 h3) (by rw [tree_ty]; exact atomic_erase h2)
    refine ⟨?_, hany _, fun h => .weaken _ (hany _ h), fun _ _ h => by cases h; exact m1⟩
    rw [htree]
    rcases hfit.2 e1 with h | ⟨h1, h2, h3⟩ | ⟨⟨x, hx⟩, h2, h3⟩
    · rw [writes_same h, ← tree_ty]; exact .same _ m1
    · refine .change _ _ (m2 h2) (not_punct h1 e2) ?_
      rcases h3 with h3 | h3
      · exact .inl (fun ho => h3 (opposed_cats (by rw [← tree_ty c]; exact ho) e2 hcp))
      · exact .inr (modifier_erase h3)
    · rw [((writes_iff _ _).1 hx).2]
      exact .gapped x _ (m3 h2) (by rw [tree_ty]; exact fwd_erase h3)
  | @raise t c ht hc ih =>
    obtain ⟨m1, m2, m3, _⟩ := ih hl hfit.1
    have hcp := (build_tree ord hA hC g hg hc hl).1
    obtain ⟨e1, e2, e3⟩ := raise_cases hA hC g hg hcp ht
    have hno : ∀ b, ¬ (PT.un t c).Headed b := by
      rintro b ⟨h1, _⟩
      rw [h1] at e2; simp at e2
    refine ⟨?_, fun h => absurd h (hno _), fun h => absurd h (hno _), fun _ _ h => by cases h; exact m1⟩
    refine .raise _ _ _ ?_ (by rw [tree_ty]; exact e3) m1
    rcases e2 with e2 | e2 <;> rw [e2] <;> simp [ccgRule]
  | @bin t l r ts ho ht hl' hr' ihl ihr =>
    have ll : ∀ c ∈ l.lexicon, Written c := fun c hc => hl c (List.mem_append_left _ hc)
    have lr : ∀ c ∈ r.lexicon, Written c := fun c hc => hl c (List.mem_append_right _ hc)
    obtain ⟨pl, _, _⟩ := build_tree ord hA hC g hg hl' ll
    obtain ⟨pr, _, _⟩ := build_tree ord hA hC g hg hr' lr
    obtain ⟨pt, hcases⟩ := combine_cases ord hA hC g hg pl pr ho ht
    have wl := toBiclosed_eq ((writes_iff _ _).2 ⟨pl, rfl⟩)
    have wr := toBiclosed_eq ((writes_iff _ _).2 ⟨pr, rfl⟩)
    have wt := toBiclosed_eq ((writes_iff _ _).2 ⟨pt, rfl⟩)
    have lic : Prescribed t.rule l.root.cat r.root.cat t.cat.exact → t.rule ≠ .conj ∧ t.rule ≠ .adjConj →
        Licensed (ccgRule t.rule) [l.root.cat.exact.erase, r.root.cat.exact.erase] t.cat.exact.erase :=
      fun h1 h2 => C63_rules _ _ _ _ h1 h2 _ _ _ wl wr wt
    -- punctuation
    have hlp : t.rule = .lp → l.root.cat.exact.erase = Cat.PUNC → Modes (.bin t l r) := by
      intro hrule hpu
      simp only [PT.Fit, hrule] at hfit
      obtain ⟨⟨w, tl, rfl⟩, hfr, hch⟩ := hfit
      obtain ⟨m1, m2, m3, _⟩ := ihr lr hfr
      have htree : (PT.bin t (.leaf w tl) r).tree = .bin .lp t.cat.exact.erase (.leaf w Cat.PUNC) r.tree := by
        simp only [PT.tree, hrule, ccgRule]
        rw [show tl.cat.exact.erase = Cat.PUNC from hpu]
      refine ⟨?_, ?_, ?_, fun _ _ h => by cases h⟩
      · rw [htree]
        rcases hch with h | ⟨h1, h2⟩
        · rw [writes_same h, ← tree_ty]; exact .lp _ _ m1
        · exact .settle .any _ (.lpChange .any _ _ _ (by simp) (m2 h2)) (not_punct h1 pt)
      · intro h; rw [htree]
        simp only [PT.Headed, hrule] at h
        exact .lpChange .any _ _ _ (by simp) (m2 h)
      · intro h; rw [htree]
        simp only [PT.Headed, hrule] at h
        exact .lpChange .fwd _ _ _ (by simp) (m3 h)
    have hrp : t.rule = .rp → r.root.cat.exact.erase = Cat.PUNC → Modes (.bin t l r) := by
      intro hrule hpu
      simp only [PT.Fit, hrule] at hfit
      obtain ⟨⟨w, tl, rfl⟩, hfr, hch⟩ := hfit
      obtain ⟨m1, m2, m3, _⟩ := ihl ll hfr
      have htree : (PT.bin t l (.leaf w tl)).tree = .bin .rp t.cat.exact.erase l.tree (.leaf w Cat.PUNC) := by
        simp only [PT.tree, hrule, ccgRule]
        rw [show tl.cat.exact.erase = Cat.PUNC from hpu]
      refine ⟨?_, ?_, ?_, fun _ _ h => by cases h⟩
      · rw [htree]
        rcases hch with h | ⟨h1, h2⟩
        · rw [writes_same h, ← tree_ty]; exact .rp _ _ m1
        · exact .settle .any _ (.rpChange .any _ _ _ (by simp) (m2 h2)) (not_punct h1 pt)
      · intro h; rw [htree]
        simp only [PT.Headed, hrule] at h
        exact .rpChange .any _ _ _ (by simp) (m2 h)
      · intro h; rw [htree]
        simp only [PT.Headed, hrule] at h
        exact .rpChange .fwd _ _ _ (by simp) (m3 h)
    -- rules that keep both types
    have plain : (t.rule = .bc ∨ t.rule = .bx ∨ t.rule = .gfc ∨ t.rule = .gbx) →
        Prescribed t.rule l.root.cat r.root.cat t.cat.exact → Modes (.bin t l r) := by
      intro hrule hpre
      have hf : l.Fit ∧ r.Fit := by
        rcases hrule with h | h | h | h <;> simpa only [PT.Fit, h] using hfit
      have hno : ∀ b, ¬ (PT.bin t l r).Headed b := by
        intro b hb
        rcases hrule with h | h | h | h <;> simp only [PT.Headed, h] at hb
      refine ⟨?_, fun h => absurd h (hno _), fun h => absurd h (hno _), fun _ _ h => by cases h⟩
      refine step_fixed (lic hpre ?_) pr ?_ (ihl ll hf.1).fixed (ihr lr hf.2).fixed
      · rcases hrule with h | h | h | h <;> rw [h] <;> simp
      · rcases hrule with h | h | h | h <;> rw [h] <;> simp
    rcases hcases with hpre | ⟨e1, e2⟩ | ⟨e1, e2⟩ | ⟨e1, e2, x, w, e3, e4, e5⟩
    · have hpre' := hpre
      generalize hrl : t.rule = rl at hpre
      generalize hlc : l.root.cat = lc at hpre
      generalize hrc : r.root.cat = rc at hpre
      generalize hsh : t.cat.exact = sh at hpre
      cases hpre with
      | fa =>
        have hf : l.Fit ∧ r.Fit := by simpa only [PT.Fit, hrl] using hfit
        have ml := ihl ll hf.1
        have mr := ihr lr hf.2
        have htree : (PT.bin t l r).tree = .bin .fa t.cat.exact.erase l.tree r.tree := by simp only [PT.tree, hrl, ccgRule]
        have hh : ∀ b, (PT.bin t l r).Headed b → Derivation .any (PT.bin t l r).tree := by
          intro b h
          simp only [PT.Headed, hrl] at h
          rw [htree]; exact .fa _ _ _ (ml.fwd h) mr.fixed
        exact ⟨step_fixed (lic hpre' (by simp [hrl])) pr (by simp [hrl]) ml.fixed mr.fixed, hh _, fun h => .weaken _ (hh _ h), fun _ _ h => by cases h⟩
      | ba =>
        have hf : l.Fit ∧ r.Fit := by simpa only [PT.Fit, hrl] using hfit
        have ml := ihl ll hf.1
        have mr := ihr lr hf.2
        have htree : (PT.bin t l r).tree = .bin .ba t.cat.exact.erase l.tree r.tree := by simp only [PT.tree, hrl, ccgRule]
        have hh : ∀ b, (PT.bin t l r).Headed b → Derivation .any (PT.bin t l r).tree := by
          intro b h
          simp only [PT.Headed, hrl] at h
          rw [htree]; exact .ba _ _ _ ml.fixed (mr.any h)
        exact ⟨step_fixed (lic hpre' (by simp [hrl])) pr (by simp [hrl]) ml.fixed mr.fixed, hh _, fun h => .weaken _ (hh _ h), fun _ _ h => by cases h⟩
      | @fc x y v l0 t0 y' z v' l' t' f ha hgv =>
        have hf : l.Fit ∧ r.Fit := by simpa only [PT.Fit, hrl] using hfit
        have ml := ihl ll hf.1
        have mr := ihr lr hf.2
        have htree : (PT.bin t l r).tree = .bin .fc t.cat.exact.erase l.tree r.tree := by simp only [PT.tree, hrl, ccgRule]
        refine ⟨step_fixed (lic hpre' (by simp [hrl])) pr (by simp [hrl]) ml.fixed mr.fixed, ?_, ?_, fun _ _ h => by cases h⟩
        · intro h; simp only [PT.Headed, hrl] at h; exact absurd h.1 (by simp)
        · intro h
          simp only [PT.Headed, hrl] at h
          obtain ⟨_, h1, h2⟩ := h
          rw [htree]
          by_cases hftr : l.root.rule = .ftr
          · obtain ⟨tl, c, s, rfl, hlt⟩ := derived_ftr ord hA hC g hg hl' ll hftr
            have hcfit : c.Fit := hf.1.1
            rw [hlt]
            exact .fcRaised _ _ _ _ (ml.child _ _ rfl) (mr.fwd h2)
          · refine .fc _ x.exact.erase y.exact.erase z.exact.erase _ _ ?_ ?_ ?_ (ml.fwd (h1.resolve_left hftr)) (mr.fwd h2)
            · intro hlr
              apply hftr
              cases l with
              | leaf w t => simp [PT.tree, Lambeq.Tree.rule] at hlr
              | un t c => simp only [PT.tree, Lambeq.Tree.rule, PT.root] at hlr ⊢; cases hh : t.rule <;> simp_all [ccgRule]
              | bin t a b => simp only [PT.tree, Lambeq.Tree.rule, PT.root] at hlr ⊢; cases hh : t.rule <;> simp_all [ccgRule]
            · rw [tree_ty, hlc]; simp [BCat.exact, Shape.erase]
            · rw [tree_ty, hrc]; simp [BCat.exact, Shape.erase, agree_erase ha]
      | bc => exact plain (by simp [hrl]) hpre'
      | bx => exact plain (by simp [hrl]) hpre'
      | gfc2 => exact plain (by simp [hrl]) hpre'
      | gfc3 => exact plain (by simp [hrl]) hpre'
      | gbx2 => exact plain (by simp [hrl]) hpre'
      | gbx3 => exact plain (by simp [hrl]) hpre'
      | lp hp => exact hlp hrl (by rw [hlc]; exact punct_erase hp)
      | rp hp => exact hrp hrl (by rw [hrc]; exact punct_erase hp)
      | conj hc =>
        simp only [PT.Fit, hrl] at hfit
        obtain ⟨⟨w, tl, rfl⟩, hfr⟩ := hfit
        have mr := ihr lr hfr
        have hx : tl.cat.exact.erase = Cat.CONJ ∨ tl.cat.exact.erase = Cat.PUNC := by
          have hlc' : tl.cat = lc := hlc
          rw [hlc']
          rcases hc with h | h | h
          · exact .inl (conj_erase h)
          · exact .inr (punct_erase (by rw [h]; rfl))
          · exact .inr (punct_erase (by rw [h]; rfl))
        have hh : Derivation .any (PT.bin t (.leaf w tl) r).tree := by
          simp only [PT.tree, hrl, ccgRule]
          exact .conjL _ _ _ _ hx mr.fixed
        refine ⟨.settle _ _ hh ?_, fun _ => hh, fun _ => .weaken _ hh, fun _ _ h => by cases h⟩
        show (PT.bin t (.leaf w tl) r).tree.ty ≠ Cat.PUNC
        rw [tree_ty]
        simp only [PT.root, hsh]
        simp [Shape.erase, Cat.PUNC]
      | adjConj hc hn =>
        simp only [PT.Fit, hrl] at hfit
        obtain ⟨⟨w, tl, rfl⟩, hfr⟩ := hfit
        have mr := ihr lr hfr
        have hh : Derivation .any (PT.bin t (.leaf w tl) r).tree := by
          simp only [PT.tree, hrl, ccgRule]
          exact .fa _ _ _ (.weaken _ (.leaf _ _)) mr.fixed
        refine ⟨.settle _ _ hh ?_, fun _ => hh, fun _ => .weaken _ hh, fun _ _ h => by cases h⟩
        show (PT.bin t (.leaf w tl) r).tree.ty ≠ Cat.PUNC
        rw [tree_ty]
        simp only [PT.root, hsh]
        have := not_punct (c := rc) (by rw [hn]; rfl) (by rw [← hrc]; exact pr)
        exact this
    · exact hlp e1 e2
    · exact hrp e1 e2
    · simp only [PT.Fit, e1] at hfit
      obtain ⟨f1, f2, f3⟩ := hfit
      have hno : ∀ b, ¬ (PT.bin t l r).Headed b := by
        intro b hb; simp only [PT.Headed, e1] at hb
      refine ⟨?_, fun h => absurd h (hno _), fun h => absurd h (hno _), fun _ _ h => by cases h⟩
      refine step_fixed ?_ pr (by simp [e1]) (ihl ll f1).fixed (ihr lr f2).fixed
      have hxs : x.exact.erase = .atom "s" := by
        have := f3 x e3
        cases x with
        | atomic a f v r => cases this; rfl
        | slash => simp [BCat.atom] at this
      rw [e2, e4, e5, hxs, e1]
      exact .gbc (.atom "s") (.atom "s") (.atom "s") [(false, w)] (by simp)

theorem tree_spoken (p : PT) : p.tree.spoken = p.spoken := by
  induction p with
  | leaf => rfl
  | un t c ih => exact ih
  | bin t l r h1 h2 =>
    simp only [PT.tree, PT.spoken]
    cases t.rule <;> simp [ccgRule, Lambeq.Tree.spoken, h1, h2]

/-- **C63.** For every grammar with properly written categories, every parse tree that its rules build from properly written lexical
categories and that meets the conditions `Fit` is converted without error to a CCG tree, and that tree without error to a well-typed
diagram, without inputs, whose output is the type written by the root category; it first puts down the words of the sentence in order
(without those removed as punctuation) and then only cups, caps and swaps. -/
theorem C63_diagram_partial (hg : GrammarRules.Proper g) (p : PT) (hp : p.Derived ord hA hC g) (hl : ∀ c ∈ p.lexicon, Written c) (hfit : p.Fit) :
    ∃ t d w c, buildCcgtree p = .ok t ∧ Lambeq.Tree.toDiagram t false false = .ok d ∧ d.WT ∧ d.dom = [] ∧
      Writes p.root.cat t.ty ∧ d.cod = t.ty.toTy ∧ Lambeq.Tree.wordNames d = p.spoken ∧
      d.boxes = w ++ c ∧ (∀ b ∈ w, Lambeq.Tree.IsWord b) ∧ (∀ b ∈ c, Lambeq.Rule.WireBox b) := by
  obtain ⟨h1, h2, h3⟩ := build_tree ord hA hC g hg hp hl
  obtain ⟨d, w, c, e1, e2, e3, e4, e5, e6, e7, e8⟩ := Lambeq.Tree.C32_type_changing _ (fit_modes ord hA hC g hg hp hl hfit).fixed
  exact ⟨_, d, w, c, h2, e1, e2, e3, by rw [tree_ty]; exact (writes_iff _ _).2 ⟨h1, rfl⟩, e4, by rw [e5, tree_spoken], e6, e7, e8⟩

end

/-! ## Examples and refutations -/

/-- "John", raised to `S/(S\NP)` from an `NP` that is made from an `N`, composed with "likes". -/
def demoRaised : Tree := ⟨.ftr, .slash '/' (demoS .x 2) (.slash '\\' (demoS .x 2) (demoNP 1) 2 none 0) 2 none 0, put (fun _ => none) 1 ⟨[1], true⟩⟩

def demoLikes : Tree := lexical (.slash '/' (.slash '\\' (demoS (.named "dcl") 1) (demoNP 2) 1 none 0) (demoNP 3) 1 none 0) 2

def demoN : BCat := .atomic .n .none 1 none

def demoGrammar : GrammarRules := ⟨true, [(demoRaised.cat, demoLikes.cat)], [(demoNP 1, [demoRaised.cat])], [(demoN, [demoNP 1])], [], []⟩

theorem demo_proper : GrammarRules.Proper demoGrammar := by
  refine ⟨?_, ?_, ?_, ?_⟩
  · intro r hr c hc
    simp only [demoGrammar, List.mem_singleton] at hr
    subst hr
    simp only [List.mem_singleton] at hc
    subst hc
    exact ⟨_, _, .np, .over .s (.under .s .np), .inl ⟨rfl, .ftr _ _⟩⟩
  · intro r hr c hc
    simp only [demoGrammar, List.mem_singleton] at hr
    subst hr
    simp only [List.mem_singleton] at hc
    subst hc
    exact ⟨_, .np⟩
  · simp [demoGrammar]
  · simp [demoGrammar]

def demoHash1 (_ : Atom) (_ : Feature) : Int := 0
def demoHash2 (_ _ : Int) (_ : Char) : Int := 0

/-- The conditions of `C63_diagram_partial` are met by the parse tree of "John likes" as `S/NP`. -/
example : ∃ p : PT, p.Derived demoOrd demoHash1 demoHash2 demoGrammar ∧ (∀ c ∈ p.lexicon, Written c) ∧ p.Fit ∧ p.words = ["John", "likes"] ∧
    p.root.rule = .fc := by
  have hc : ∃ t, t ∈ typeChange demoHash1 demoHash2 demoGrammar [lexical demoN 1] ∧ t.rule = .u ∧ t.cat = demoNP 1 ∧ t.varMap 1 = some ⟨[1], true⟩ :=
    ⟨_, List.mem_cons_self, rfl, rfl, rfl⟩
  obtain ⟨np, hnp, hnp1, hnp2, hnp3⟩ := hc
  have hr : ∃ t, t ∈ typeRaise demoHash1 demoHash2 demoGrammar [np] ∧ t.rule = .ftr ∧ t = demoRaised := by
    refine ⟨demoRaised, ?_, rfl, rfl⟩
    simp only [typeRaise, List.flatMap_cons, List.flatMap_nil, List.append_nil, hnp2]
    rw [show matchRule demoHash1 demoHash2 demoGrammar.typeRaising (demoNP 1) = [demoRaised.cat] from by decide +kernel]
    simp only [List.map_cons, List.map_nil, List.mem_singleton]
    simp only [typeRaising, Tree.headVar, hnp2, demoNP, BCat.var, hnp3]
    rfl
  obtain ⟨tr, htr, htr1, rfl⟩ := hr
  have hcomb : ∃ ts t, combine demoOrd demoHash1 demoHash2 demoGrammar demoRaised demoLikes = .ok ts ∧ t ∈ ts ∧ t.rule = .fc ∧ t.cat.exact =
      .slash '/' (.atomic .s (.named "dcl")) (.atomic .np .none) := by
    have h : (combine demoOrd demoHash1 demoHash2 demoGrammar demoRaised demoLikes).toOption.map (List.map (fun t => (t.rule, t.cat.exact))) =
      some [(.fc, .slash '/' (.atomic .s (.named "dcl")) (.atomic .np .none))] := by decide +kernel
    cases hh : combine demoOrd demoHash1 demoHash2 demoGrammar demoRaised demoLikes with
    | error e => rw [hh] at h; simp [Except.toOption] at h
    | ok ts =>
      rw [hh] at h
      simp only [Except.toOption, Option.map_some, Option.some.injEq] at h
      cases ts with
      | nil => simp at h
      | cons t rest =>
        simp only [List.map_cons, List.cons.injEq, Prod.mk.injEq] at h
        exact ⟨_, t, rfl, List.mem_cons_self, h.1.1, h.1.2⟩
  obtain ⟨ts, t, h1, h2, h3, h4⟩ := hcomb
  refine ⟨.bin t (.un demoRaised (.un np (.leaf "John" (lexical demoN 1)))) (.leaf "likes" demoLikes),
    .bin h1 h2 (.raise htr (.change hnp (.leaf rfl))) (.leaf rfl), ?_, ?_, rfl, h3⟩
  · intro c hc
    simp only [PT.lexicon, List.cons_append, List.nil_append, List.mem_cons, List.not_mem_nil, or_false] at hc
    rcases hc with rfl | rfl
    · exact ⟨_, .n⟩
    · exact ⟨_, .over (.under .s .np) .np⟩
  · simp only [PT.Fit, h3]
    refine ⟨⟨⟨rfl, fun _ => .inr (.inl ⟨by rw [hnp2]; rfl, trivial, .inl ?_⟩)⟩, fun h => by rw [htr1] at h; cases h⟩, rfl⟩
    rw [hnp2]
    rintro (⟨h, _⟩ | ⟨h, _⟩) <;> simp [demoNP, BCat.fwd, BCat.bwd, BCat.dir] at h

/-- The conjunction of adjectives, `conj N ⇒ N`, is labelled as a forward application, of which it is no instance. (It is converted all the
same, since the connective gets the type `N/N`.) -/
theorem C63_refuted_adjectival_conjunction : ∃ (l r s : BCat) (x y z : Cat), Prescribed .adjConj l r s.exact ∧ toBiclosed l = .ok x ∧
    toBiclosed r = .ok y ∧ toBiclosed s = .ok z ∧ ¬ Licensed (ccgRule .adjConj) [x, y] z := by
  refine ⟨.atomic .conj .none 1 none, demoN, demoN, _, _, _, .adjConj rfl rfl, rfl, rfl, rfl, ?_⟩
  intro h
  generalize hl : Cat.CONJ = x at h
  cases h
  simp [Cat.CONJ] at hl

end Bobcat
end Lambeq
