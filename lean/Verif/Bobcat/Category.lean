import Verif.Py
import Mathlib.Data.List.Basic
import Mathlib.Tactic.Tauto

/-!
# Bobcat: categories

Models `lambeq/bobcat/lexicon.py` 27-234 (`Atom`, `Feature`, `Category`: construction, `slash`, `translate`, hashing, equality, matching) and
`match_rule` (`lambeq/bobcat/rules.py` 73-81).

Simplifications. The features other than `NONE` and `X` are names. Relations are values of a type that nothing depends on (numbers). A
complex category is made by `slash` only, so that its atom and feature are `NONE`; its direction is any character. Python's `hash` of the
tuples is a parameter: a function of the hashes of the components.
-/

namespace Lambeq
namespace Bobcat

/-- lexicon.py:27-42 -/
inductive Atom
  | none | n | np | s | pp | conj | comma | semicolon | colon | period | lqu | rqu | lrb | rrb
  deriving DecidableEq, Repr

/-- lexicon.py:42 -/
def Atom.isPunct : Atom → Bool
  | .comma | .semicolon | .colon | .period | .lqu | .rqu | .lrb | .rrb => true
  | _ => false

/-- lexicon.py:45-51 -/
inductive Feature
  | none | x | named (name : String)
  deriving DecidableEq, Repr

/-- lexicon.py:53-55 -/
def Feature.isFree : Feature → Bool
  | .none | .x => true
  | .named _ => false

/-- lexicon.py:72-122 -/
inductive BCat
  | atomic (atom : Atom) (feature : Feature) (var : Nat) (rel : Option Nat)
  | slash (dir : Char) (result argument : BCat) (var : Nat) (rel : Option Nat) (trVar : Nat)
  deriving DecidableEq, Repr

namespace BCat

/-- The attribute `atom`, lexicon.py:81, 115: `Atom.NONE` for complex categories. -/
def atom : BCat → Atom
  | .atomic a _ _ _ => a
  | .slash .. => .none

/-- The attribute `feature`, lexicon.py:82, 116. -/
def feature : BCat → Feature
  | .atomic _ f _ _ => f
  | .slash .. => .none

/-- The attribute `var`, lexicon.py:85. -/
def var : BCat → Nat
  | .atomic _ _ v _ => v
  | .slash _ _ _ v _ _ => v

/-- The attribute `relation`, lexicon.py:86. -/
def rel : BCat → Option Nat
  | .atomic _ _ _ r => r
  | .slash _ _ _ _ r _ => r

/-- The attribute `dir`, lexicon.py:89: the null character for atomic categories. -/
def dir : BCat → Option Char
  | .atomic .. => none
  | .slash d .. => some d

/-- The attribute `result`, lexicon.py:90: `None` for atomic categories. -/
def result : BCat → Option BCat
  | .atomic .. => none
  | .slash _ r _ _ _ _ => some r

/-- The attribute `argument`, lexicon.py:91. -/
def argument : BCat → Option BCat
  | .atomic .. => none
  | .slash _ _ a _ _ _ => some a

/-- lexicon.py:236-239 -/
def bwd (c : BCat) : Bool := c.dir = some '\\'

/-- lexicon.py:241-244 -/
def fwd (c : BCat) : Bool := c.dir = some '/'

/-- The attribute `vars`, lexicon.py:102-106, as a list. -/
def vars : BCat → List Nat
  | .atomic _ _ v _ => if v = 0 then [] else [v]
  | .slash _ r a v _ _ => (if v = 0 then [] else [v]) ++ a.vars ++ r.vars

/-- lexicon.py:184-192, for hash functions `hA` of the pairs (atom, feature) and `hC` of the triples (result, argument, direction). -/
def hash (hA : Atom → Feature → Int) (hC : Int → Int → Char → Int) : BCat → Int
  | .atomic a f _ _ => hA a (if f = .x then .none else f)
  | .slash d r a _ _ _ => hC (r.hash hA hC) (a.hash hA hC) d

/-- lexicon.py:203-207 -/
def equalsAtomic (a : Atom) (f : Feature) (oa : Atom) (of : Feature) : Bool :=
  decide (a = oa) && (decide (f = of) || (decide (a = .s) && f.isFree && of.isFree))

/-- lexicon.py:197-215. The attribute accesses on `other` do not fail: the direction is compared first. -/
def equals (hA : Atom → Feature → Int) (hC : Int → Int → Char → Int) : BCat → BCat → Bool
  | .atomic a f v r, o =>
    if (BCat.atomic a f v r).hash hA hC ≠ o.hash hA hC then false else equalsAtomic a f o.atom o.feature
  | .slash d r a v l t, o =>
    if (BCat.slash d r a v l t).hash hA hC ≠ o.hash hA hC then false else
      match o with
      | .atomic .. => false
      | .slash d' r' a' _ _ _ => decide (d = d') && equals hA hC r r' && equals hA hC a a'

/-- lexicon.py:217-234 -/
def doesMatch : BCat → BCat → Bool
  | .atomic a f _ _, o => decide (a = o.atom) && (decide (f = .none) || decide (f = o.feature))
  | .slash d r a _ _ _, o =>
    match o with
    | .atomic .. => false
    | .slash d' r' a' _ _ _ => decide (d = d') && doesMatch r r' && doesMatch a a'

/-- lexicon.py:139-143 -/
def newFeature (f feature : Feature) : Feature := if f = .x ∧ feature ≠ .none then feature else f

/-- lexicon.py:124-148 -/
def translate (varMap : Nat → Option Nat) (feature : Feature) : BCat → Except PyErr BCat
  | .atomic a f v r =>
    match varMap v with
    | none => .error .keyError
    | some w => .ok (.atomic a (newFeature f feature) w r)
  | .slash d r a v l _ =>
    match varMap v with
    | none => .error .keyError
    | some w =>
      match translate varMap feature r with
      | .error e => .error e
      | .ok r' =>
        match translate varMap feature a with
        | .error e => .error e
        | .ok a' => .ok (.slash d r' a' w l 0)

end BCat

/-- rules.py:73-81: a dictionary is a list of its items, in order; looking up a key compares with `==`, a loop compares with `matches`. -/
def matchRule {T : Type} (hA : Atom → Feature → Int) (hC : Int → Int → Char → Int) (rules : List (BCat × List T)) (cat : BCat) : List T :=
  match rules.find? (fun r => r.1.equals hA hC cat) with
  | some r => r.2
  | none =>
    match rules.find? (fun r => r.1.doesMatch cat) with
    | some r => r.2
    | none => []

/-! ## Specification -/

/-- The atoms of a category are real atoms. -/
def BCat.Real : BCat → Prop
  | .atomic a _ _ _ => a ≠ .none
  | .slash _ r a _ _ _ => r.Real ∧ a.Real

/-- The category as written, without variables and slots: the shape that equality should compare. -/
inductive Shape
  | atomic (atom : Atom) (feature : Feature)
  | slash (dir : Char) (result argument : Shape)
  deriving DecidableEq, Repr

/-- The shape, with `S[X]` read as `S`. -/
def BCat.shape : BCat → Shape
  | .atomic a f _ _ => .atomic a (if a = .s ∧ f = .x then .none else f)
  | .slash d r a _ _ _ => .slash d r.shape a.shape

/-- The shape as written. -/
def BCat.exact : BCat → Shape
  | .atomic a f _ _ => .atomic a f
  | .slash d r a _ _ _ => .slash d r.exact a.exact

/-- `Instance p s`: the shape `s` arises from the shape `p` by giving features to atoms without feature. -/
inductive Instance : Shape → Shape → Prop
  | same (a f) : Instance (.atomic a f) (.atomic a f)
  | refine (a f) : Instance (.atomic a .none) (.atomic a f)
  | slash {d r r' a a'} : Instance r r' → Instance a a' → Instance (.slash d r a) (.slash d r' a')

section
variable (hA : Atom → Feature → Int) (hC : Int → Int → Char → Int)

theorem hash_of_shape {c d : BCat} (h : c.shape = d.shape) : c.hash hA hC = d.hash hA hC := by
  induction c generalizing d with
  | atomic a f v r =>
    cases d with
    | slash => simp [BCat.shape] at h
    | atomic a' f' v' r' =>
      simp only [BCat.shape, Shape.atomic.injEq] at h
      obtain ⟨rfl, h⟩ := h
      by_cases hs : a = .s
      · subst hs
        simp only [true_and] at h
        simp only [BCat.hash]; rw [h]
      · simp only [hs, false_and, if_false] at h
        simp only [BCat.hash, h]
  | slash dd r a v l t ih1 ih2 =>
    cases d with
    | atomic => simp [BCat.shape] at h
    | slash d' r' a' v' l' t' =>
      simp only [BCat.shape, Shape.slash.injEq] at h
      obtain ⟨rfl, h1, h2⟩ := h
      simp only [BCat.hash, ih1 h1, ih2 h2]

theorem equalsAtomic_iff (a : Atom) (f : Feature) (oa : Atom) (of : Feature) :
    BCat.equalsAtomic a f oa of = true ↔ (Shape.atomic a (if a = .s ∧ f = .x then .none else f)) = .atomic oa (if oa = .s ∧ of = .x then .none else of) := by
  unfold BCat.equalsAtomic
  simp only [Bool.and_eq_true, decide_eq_true_eq, Bool.or_eq_true, Shape.atomic.injEq]
  constructor
  · rintro ⟨rfl, h⟩
    refine ⟨rfl, ?_⟩
    rcases h with rfl | ⟨⟨rfl, h1⟩, h2⟩
    · rfl
    · cases f <;> cases of <;> simp_all [Feature.isFree]
  · rintro ⟨rfl, h⟩
    refine ⟨rfl, ?_⟩
    by_cases hs : a = .s
    · subst hs
      cases f <;> cases of <;> simp_all [Feature.isFree]
    · left; simpa [hs] using h

/-- **C47 (equality).** For every hash function, two categories are equal for `==` if and only if they are written the same, up to
variables, slots and the difference between `S` and `S[X]`. -/
theorem C47_equals_iff (c d : BCat) (hc : c.Real) (hd : d.Real) : c.equals hA hC d = true ↔ c.shape = d.shape := by
  induction c generalizing d with
  | atomic a f v r =>
    simp only [BCat.equals]
    constructor
    · intro h
      split at h
      · cases h
      · cases d with
        | atomic a' f' v' r' => exact (equalsAtomic_iff a f a' f').1 h
        | slash =>
          simp only [BCat.equalsAtomic, Bool.and_eq_true, decide_eq_true_eq] at h
          exact absurd h.1 hc
    · intro h
      rw [hash_of_shape hA hC h]
      simp only [ne_eq, not_true_eq_false, if_false]
      cases d with
      | atomic a' f' v' r' => exact (equalsAtomic_iff a f a' f').2 h
      | slash => simp [BCat.shape] at h
  | slash dd r a v l t ih1 ih2 =>
    cases d with
    | atomic => simp [BCat.equals, BCat.shape]
    | slash d' r' a' v' l' t' =>
      simp only [BCat.Real] at hc hd
      constructor
      · intro h
        simp only [BCat.equals] at h
        split at h
        · cases h
        · simp only [Bool.and_eq_true, decide_eq_true_eq] at h
          simp only [BCat.shape, Shape.slash.injEq]
          exact ⟨h.1.1, (ih1 r' hc.1 hd.1).1 h.1.2, (ih2 a' hc.2 hd.2).1 h.2⟩
      · intro h
        have hh := hash_of_shape hA hC h
        simp only [BCat.shape, Shape.slash.injEq] at h
        simp only [BCat.equals, hh, ne_eq, not_true_eq_false, if_false, Bool.and_eq_true, decide_eq_true_eq]
        exact ⟨⟨h.1, (ih1 r' hc.1 hd.1).2 h.2.1⟩, (ih2 a' hc.2 hd.2).2 h.2.2⟩

/-- **C47.** Equality of categories is an equivalence relation, and equal categories have equal hashes. -/
theorem C47_equivalence :
    (∀ c : BCat, c.Real → c.equals hA hC c = true) ∧
    (∀ c d : BCat, c.Real → d.Real → c.equals hA hC d = true → d.equals hA hC c = true) ∧
    (∀ c d e : BCat, c.Real → d.Real → e.Real → c.equals hA hC d = true → d.equals hA hC e = true → c.equals hA hC e = true) ∧
    (∀ c d : BCat, c.equals hA hC d = true → c.hash hA hC = d.hash hA hC) := by
  refine ⟨fun c hc => (C47_equals_iff hA hC c c hc hc).2 rfl, ?_, ?_, ?_⟩
  · intro c d hc hd h
    exact (C47_equals_iff hA hC d c hd hc).2 ((C47_equals_iff hA hC c d hc hd).1 h).symm
  · intro c d e hc hd he h1 h2
    exact (C47_equals_iff hA hC c e hc he).2 (((C47_equals_iff hA hC c d hc hd).1 h1).trans ((C47_equals_iff hA hC d e hd he).1 h2))
  · intro c d h
    cases c <;>
    · simp only [BCat.equals] at h
      split at h
      · cases h
      · rename_i hh; exact not_not.1 hh

end

/-- **C47 (matching).** A category matches another one if and only if the second one, as written, is an instance of the first. -/
theorem C47_matches_iff (c d : BCat) (hc : c.Real) (hd : d.Real) : c.doesMatch d = true ↔ Instance c.exact d.exact := by
  induction c generalizing d with
  | atomic a f v r =>
    cases d with
    | atomic a' f' v' r' =>
      simp only [BCat.doesMatch, Bool.and_eq_true, decide_eq_true_eq, Bool.or_eq_true, BCat.exact]
      simp only [BCat.atom, BCat.feature]
      constructor
      · rintro ⟨rfl, rfl | rfl⟩
        · exact .refine _ _
        · exact .same _ _
      · intro h
        cases h with
        | same => exact ⟨rfl, .inr rfl⟩
        | refine => exact ⟨rfl, .inl rfl⟩
    | slash =>
      simp only [BCat.Real] at hc
      simp only [BCat.doesMatch, BCat.atom, hc, decide_false, Bool.false_and, BCat.exact]
      constructor
      · intro h; cases h
      · intro h; cases h
  | slash dd r a v l t ih1 ih2 =>
    cases d with
    | atomic => 
      simp only [BCat.doesMatch, BCat.exact]
      constructor
      · intro h; cases h
      · intro h; cases h
    | slash d' r' a' v' l' t' =>
      simp only [BCat.Real] at hc hd
      simp only [BCat.doesMatch, Bool.and_eq_true, decide_eq_true_eq, BCat.exact, ih1 r' hc.1 hd.1, ih2 a' hc.2 hd.2]
      constructor
      · rintro ⟨⟨rfl, h1⟩, h2⟩; exact .slash h1 h2
      · intro h
        cases h with
        | slash h1 h2 => exact ⟨⟨rfl, h1⟩, h2⟩

theorem instance_refl (s : Shape) : Instance s s := by
  induction s with
  | atomic a f => exact .same a f
  | slash d r a h1 h2 => exact .slash h1 h2

theorem instance_trans {s t u : Shape} (h : Instance s t) (h' : Instance t u) : Instance s u := by
  induction h generalizing u with
  | same => exact h'
  | refine a f => cases h' <;> exact .refine _ _
  | slash _ _ ih1 ih2 => cases h' with | slash h1 h2 => exact .slash (ih1 h1) (ih2 h2)

theorem instance_antisymm {s t : Shape} (h : Instance s t) (h' : Instance t s) : s = t := by
  induction h with
  | same => rfl
  | refine a f => cases h' <;> rfl
  | slash _ _ ih1 ih2 => cases h' with | slash h1 h2 => rw [ih1 h1, ih2 h2]

/-- **C47.** Matching is a preorder that contains the identity of written shapes, and two categories that match each other are written the
same. -/
theorem C47_matches_order :
    (∀ c : BCat, c.Real → c.doesMatch c = true) ∧
    (∀ c d e : BCat, c.Real → d.Real → e.Real → c.doesMatch d = true → d.doesMatch e = true → c.doesMatch e = true) ∧
    (∀ c d : BCat, c.Real → d.Real → c.exact = d.exact → c.doesMatch d = true) ∧
    (∀ c d : BCat, c.Real → d.Real → c.doesMatch d = true → d.doesMatch c = true → c.exact = d.exact) := by
  refine ⟨fun c hc => (C47_matches_iff c c hc hc).2 (instance_refl _), ?_, ?_, ?_⟩
  · intro c d e hc hd he h1 h2
    exact (C47_matches_iff c e hc he).2 (instance_trans ((C47_matches_iff c d hc hd).1 h1) ((C47_matches_iff d e hd he).1 h2))
  · intro c d hc hd h
    exact (C47_matches_iff c d hc hd).2 (h ▸ instance_refl _)
  · intro c d hc hd h1 h2
    exact instance_antisymm ((C47_matches_iff c d hc hd).1 h1) ((C47_matches_iff d c hd hc).1 h2)

/-- `matches` is documented as "like == but the NONE feature matches with everything"; but `S[X] == S`, and `S[X]` does not match `S`. -/
theorem C47_refuted_equal_not_matching (hA : Atom → Feature → Int) (hC : Int → Int → Char → Int) :
    (BCat.atomic .s .x 0 none).equals hA hC (.atomic .s .none 0 none) = true ∧
    (BCat.atomic .s .x 0 none).doesMatch (.atomic .s .none 0 none) = false ∧
    (BCat.atomic .s .none 0 none).doesMatch (.atomic .s .x 0 none) = true := by
  simp [BCat.equals, BCat.hash, BCat.equalsAtomic, BCat.atom, BCat.feature, BCat.doesMatch, Feature.isFree]

/-- Without the restriction to real atoms, symmetry of `==` depends on the hash function: the default category `Category()` equals every
complex category with the same hash, and is equal to none of them. -/
theorem C47_refuted_empty_atom : ∃ (hA : Atom → Feature → Int) (hC : Int → Int → Char → Int) (c d : BCat),
    c.equals hA hC d = true ∧ d.equals hA hC c = false :=
  ⟨fun _ _ => 0, fun _ _ _ => 0, .atomic .none .none 0 none, .slash '/' (.atomic .n .none 0 none) (.atomic .n .none 0 none) 0 none 0, by
    decide, by decide⟩

/-- **C47 (rule lookup).** The rules found are those of the first key equal to the category, or else of the first key that matches it, or
none. -/
theorem C47_match_rule {T : Type} (hA : Atom → Feature → Int) (hC : Int → Int → Char → Int) (rules : List (BCat × List T)) (cat : BCat)
    (hr : ∀ r ∈ rules, r.1.Real) (hc : cat.Real) :
    (∃ r ∈ rules, r.1.shape = cat.shape ∧ matchRule hA hC rules cat = r.2) ∨
    ((∀ r ∈ rules, r.1.shape ≠ cat.shape) ∧
      ((∃ pre r post, rules = pre ++ r :: post ∧ Instance r.1.exact cat.exact ∧ (∀ q ∈ pre, ¬ Instance q.1.exact cat.exact) ∧
          matchRule hA hC rules cat = r.2) ∨
       ((∀ r ∈ rules, ¬ Instance r.1.exact cat.exact) ∧ matchRule hA hC rules cat = []))) := by
  unfold matchRule
  cases h : rules.find? (fun r => r.1.equals hA hC cat) with
  | some r =>
    left
    have hm := List.mem_of_find?_eq_some h
    have hp := List.find?_some h
    exact ⟨r, hm, (C47_equals_iff hA hC _ _ (hr r hm) hc).1 hp, rfl⟩
  | none =>
    right
    rw [List.find?_eq_none] at h
    refine ⟨fun r hm he => h r hm ((C47_equals_iff hA hC _ _ (hr r hm) hc).2 he), ?_⟩
    cases h2 : rules.find? (fun r => r.1.doesMatch cat) with
    | some r =>
      left
      obtain ⟨hp, pre, post, heq, hpre⟩ := List.find?_eq_some_iff_append.1 h2
      have hm : r ∈ rules := List.mem_of_find?_eq_some h2
      refine ⟨pre, r, post, heq, (C47_matches_iff _ _ (hr r hm) hc).1 hp, ?_, rfl⟩
      intro q hq hi
      have := hpre q hq
      rw [(C47_matches_iff _ _ (hr q (by rw [heq]; simp [hq])) hc).2 hi] at this
      simp at this
    | none =>
      right
      rw [List.find?_eq_none] at h2
      exact ⟨fun r hm hi => h2 r hm ((C47_matches_iff _ _ (hr r hm) hc).2 hi), rfl⟩

/-- `S[dcl]\NP` and `(S[X]\NP){Y}`: real, different; the template `S\NP` matches both and equals the second only. -/
example :
    let np : BCat := .atomic .np .none 0 none
    let a : BCat := .slash '\\' (.atomic .s (.named "dcl") 1 none) np 0 none 0
    let b : BCat := .slash '\\' (.atomic .s .x 0 (some 1)) np 2 none 0
    let t : BCat := .slash '\\' (.atomic .s .none 0 none) np 0 none 0
    a.Real ∧ b.Real ∧ a.shape ≠ b.shape ∧ t.shape = b.shape ∧ t.doesMatch a = true ∧ t.doesMatch b = true ∧ a.doesMatch t = false := by
  simp [BCat.Real, BCat.shape, BCat.doesMatch, BCat.atom, BCat.feature]

end Bobcat
end Lambeq
