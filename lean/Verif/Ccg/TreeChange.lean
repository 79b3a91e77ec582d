import Verif.Ccg.TreePlanar

/-!
# Derivation trees with type-changing rules

`Proper` (`Ccg/TreeProps.lean`) allows a type-changing unary rule over a single word only. Parsers also put such rules over phrases
(`N ⇒ NP`, `S\NP ⇒ N\N`, `, NP ⇒ (S\NP)\(S\NP)`, …). `CCGTree._resolved` (`lambeq/text2diagram/ccg_tree.py` 355-429) handles them by giving
the phrase the new category and passing it down to the word that heads it. This module says for which trees this works and proves it.
-/

set_option linter.unusedVariables false
set_option linter.unusedSimpArgs false

namespace Lambeq
open Diagram GDiagram
namespace Tree
open Rule (Licensed WireBox Good)

/-! ## Specification -/

/-- Which categories can be imposed on a phrase: only its own one; every category `A/B`; every category but the one of punctuation. -/
inductive Mode | fixed | fwd | any
  deriving DecidableEq, Repr

/-- The category `out` can be imposed on the tree. -/
def Mode.Allows : Mode → Tree → Cat → Prop
  | .fixed, t, out => out = t.ty
  | .fwd, _, out => ∃ a b, out = .over a b
  | .any, _, out => out ≠ Cat.PUNC

/-- The two categories are complex with opposite slashes. -/
def Opposed (t x : Cat) : Prop := (∃ a b c d, t = .over a b ∧ x = .under c d) ∨ (∃ a b c d, t = .under a b ∧ x = .over c d)

/-- Derivation trees with type-changing rules. In mode `any` or `fwd` the tree has a word (or conjunction) on which a category imposed on
the root can be unloaded: the functor of an application, of a composition. -/
inductive Derivation : Mode → Tree → Prop
  | leaf (w : String) (t : Cat) : Derivation .any (leaf w t)
  /-- a tree keeps its category if that category can be imposed on it -/
  | settle (m : Mode) (t : Tree) (ht : Derivation m t) (h : m.Allows t t.ty) : Derivation .fixed t
  | weaken (t : Tree) (ht : Derivation .any t) : Derivation .fwd t
  /-- type raising -/
  | raise (r : Rule) (t : Cat) (c : Tree) (hr : r ≠ .unary) (h : Licensed r [c.ty] t) (hc : Derivation .fixed c) :
      Derivation .fixed (un r t c)
  /-- a unary rule that changes nothing -/
  | same (c : Tree) (hc : Derivation .fixed c) : Derivation .fixed (un .unary c.ty c)
  /-- a type-changing unary rule that keeps the direction of the slash, or gives a modifier `X/X` or `X\X` -/
  | change (t : Cat) (c : Tree) (hc : Derivation .any c) (ht : t ≠ Cat.PUNC)
      (hd : ¬ Opposed t c.ty ∨ ∃ x, t = .over x x ∨ t = .under x x) : Derivation .fixed (un .unary t c)
  /-- `A/B ⇒ X\X`, as for a clause with a gap -/
  | gapped (x : Cat) (c : Tree) (hc : Derivation .fwd c) (hd : ∃ a b, c.ty = .over a b) : Derivation .fixed (un .unary (.under x x) c)
  | changeAtomic (t : Cat) (c : Tree) (hc : Derivation .any c) (ha : c.ty.isComplex = false) : Derivation .any (un .unary t c)
  /-- removal of punctuation, and its type-changing variant -/
  | lp (w : String) (r : Tree) (hr : Derivation .fixed r) : Derivation .fixed (bin .lp r.ty (.leaf w Cat.PUNC) r)
  | rp (w : String) (l : Tree) (hl : Derivation .fixed l) : Derivation .fixed (bin .rp l.ty l (.leaf w Cat.PUNC))
  | lpChange (m : Mode) (w : String) (t : Cat) (r : Tree) (hm : m ≠ .fixed) (hr : Derivation m r) :
      Derivation m (bin .lp t (.leaf w Cat.PUNC) r)
  | rpChange (m : Mode) (w : String) (t : Cat) (l : Tree) (hm : m ≠ .fixed) (hl : Derivation m l) :
      Derivation m (bin .rp t l (.leaf w Cat.PUNC))
  /-- conjunction, the connective on the left or on the right -/
  | conjL (w : String) (x t : Cat) (r : Tree) (hx : x = Cat.CONJ ∨ x = Cat.PUNC) (hr : Derivation .fixed r) :
      Derivation .any (bin .conj t (.leaf w x) r)
  | conjR (w : String) (x t : Cat) (l : Tree) (hx : x = Cat.CONJ ∨ x = Cat.PUNC)
      (hn : l.ty ≠ Cat.CONJ ∧ l.ty ≠ Cat.PUNC) (hl : Derivation .fixed l) : Derivation .any (bin .conj t l (.leaf w x))
  /-- application of a functor on which `T/Y`, `T\Y` can be imposed -/
  | fa (t : Cat) (l r : Tree) (hl : Derivation .fwd l) (hr : Derivation .fixed r) : Derivation .any (bin .fa t l r)
  | ba (t : Cat) (l r : Tree) (hl : Derivation .fixed l) (hr : Derivation .any r) : Derivation .any (bin .ba t l r)
  /-- composition of two functors on which categories `A/B` can be imposed -/
  | fc (t x y z : Cat) (l r : Tree) (hn : l.rule ≠ .ftr) (h1 : l.ty = .over x y) (h2 : r.ty = .over y z) (hl : Derivation .fwd l)
      (hr : Derivation .fwd r) : Derivation .fwd (bin .fc t l r)
  /-- composition of a raised phrase -/
  | fcRaised (t s : Cat) (c r : Tree) (hc : Derivation .fixed c) (hr : Derivation .fwd r) :
      Derivation .fwd (bin .fc t (un .ftr (.over s (.under s c.ty)) c) r)
  /-- all binary combinators -/
  | bin (rule : Rule) (t : Cat) (l r : Tree) (h : Licensed rule [l.ty, r.ty] t)
      (hr : rule ≠ .lp ∧ rule ≠ .rp) (hne : r.ty.NoEmpty) (hl : Derivation .fixed l) (hr' : Derivation .fixed r) :
      Derivation .fixed (bin rule t l r)

/-! ## Proofs -/

theorem derivation_ftr {m : Mode} {l : Tree} (h : Derivation m l) (hf : l.rule = .ftr) : ∃ t c, l = .un .ftr t c ∧ Licensed .ftr [c.ty] t := by
  induction h with
  | settle m t ht _ ih => exact ih hf
  | weaken t ht ih => exact ih hf
  | raise r t c hr h hc ih => simp only [Tree.rule] at hf; subst hf; exact ⟨t, c, rfl, h⟩
  | bin rule t l r h _ _ _ _ =>
    simp only [Tree.rule] at hf; subst hf
    generalize l.ty = x at h; generalize r.ty = y at h; cases h
  | _ => simp [Tree.rule] at hf

theorem derivation_bin {rule : Rule} {t : Cat} {l r : Tree} (h : Licensed rule [l.ty, r.ty] t)
    (hne : r.ty.NoEmpty) {m : Mode} (hl : Derivation m l) :
    binRule rule l = rule ∧ binDom rule l r t = .ok [l.ty, r.ty] ∧
      (rule = .gbc → ∀ x y, r.ty = .under x y → y.toTy ≠ []) := by
  have hstable := Rule.C31_resolve_stable rule _ _ h
  have hrule : binRule rule l = rule := by
    unfold binRule
    split
    · next hc => subst hc; cases h
    · rfl
  refine ⟨hrule, ?_, ?_⟩
  · unfold binDom
    split
    · next hc =>
      obtain ⟨rfl, hftr⟩ := hc
      obtain ⟨t0, c0, rfl, hlic⟩ := derivation_ftr hl hftr
      simp only [ty_un] at h hstable ⊢
      generalize hrt : r.ty = rt at *
      cases h with
      | fc x y z =>
        cases hlic with
        | ftr x0 t1 =>
          simp only [Cat.left, Cat.right, ok_bind]
          exact Rule.C31_resolve_stable .fc _ _ (.fc _ _ _)
    · exact hstable
  · rintro rfl x y hb
    rw [hb] at hne
    exact Rule.toTy_ne_nil hne.2

theorem opposed_iff (t x : Cat) : dirSwap t x = true ↔ Opposed t x := by
  cases t <;> cases x <;> simp [dirSwap, Cat.isOver, Cat.isUnder, Opposed]

theorem swapDom_over {x : Cat} : ∃ a b, swapDom (.under x x) = .over a b := ⟨_, _, rfl⟩

theorem derivation_deriv {m : Mode} {t : Tree} (h : Derivation m t) : ∀ out, m.Allows t out → Deriv t out := by
  induction h with
  | leaf w t => intro out ho; exact .leaf w t out ho
  | settle m t ht h ih => intro out ho; cases ho; exact ih _ h
  | weaken t ht ih =>
    rintro out ⟨a, b, rfl⟩
    exact ih _ (by simp [Mode.Allows, Cat.PUNC])
  | raise r t c hr h hc ih =>
    intro out ho; cases ho
    exact .un r t c t c.ty hr (Rule.C31_resolve_stable r _ _ h) h (ih _ rfl)
  | same c hc ih =>
    intro out ho; cases ho
    refine .keep _ c _ ?_ (ih _ rfl)
    show dirSwap c.ty c.ty = false
    cases c.ty <;> rfl
  | change t c hc ht hd ih =>
    intro out ho; cases ho
    by_cases hs : dirSwap t c.ty = true
    · have hx := hd.resolve_left (not_not.2 ((opposed_iff _ _).1 hs))
      refine .swap t c t hs hx (ih _ ?_)
      obtain ⟨x, rfl | rfl⟩ := hx <;> simp [swapDom, Mode.Allows, Cat.PUNC]
    · exact .keep t c t (by simpa using hs) (ih _ ht)
  | gapped x c hc hd ih =>
    intro out ho; cases ho
    obtain ⟨a, b, hab⟩ := hd
    refine .swap _ c (.under x x) ?_ ⟨x, .inr rfl⟩ (ih _ swapDom_over)
    rw [hab]; rfl
  | changeAtomic t c hc ha ih =>
    intro out ho
    refine .keep t c out ?_ (ih _ ho)
    revert ha
    cases c.ty <;> simp [dirSwap, Cat.isComplex, Cat.isOver, Cat.isUnder]
  | lp w r hr ih => intro out ho; cases ho; exact .lp w _ r _ (ih _ rfl)
  | rp w l hl ih => intro out ho; cases ho; exact .rp w _ l _ (ih _ rfl)
  | lpChange m w t r hm hr ih =>
    intro out ho
    refine .lp w t r out (ih _ ?_)
    cases m
    · exact absurd rfl hm
    · exact ho
    · exact ho
  | rpChange m w t l hm hl ih =>
    intro out ho
    refine .rp w t l out (ih _ ?_)
    cases m
    · exact absurd rfl hm
    · exact ho
    · exact ho
  | conjL w x t r hx hr ih =>
    intro out ho
    have hj := (conjoinable_iff x).2 hx
    refine .bin .conj t _ r out (.over out r.ty) r.ty (by simp) (by simp) ?_ ?_ (by simp) (.leaf _ _ _ (by simp [Cat.PUNC])) (ih _ rfl)
    · simp [binDom, Rule.resolveBin, ty_leaf, hj, Rule.resolve]
    · simp only [binRule, ty_leaf, hj, if_true]; exact .fa _ _
  | conjR w x t l hx hn hl ih =>
    intro out ho
    have hj := (conjoinable_iff x).2 hx
    have hj' : l.ty.isConjoinable = false := by
      cases hh : l.ty.isConjoinable with
      | false => rfl
      | true => rcases (conjoinable_iff _).1 hh with h | h
                · exact absurd h hn.1
                · exact absurd h hn.2
    refine .bin .conj t l _ out l.ty (.under out l.ty) (by simp) (by simp) ?_ ?_ (by simp) (ih _ rfl) (.leaf _ _ _ (by simp [Cat.PUNC]))
    · simp [binDom, Rule.resolve, Rule.resolveBin, ty_leaf, hj, hj']
    · simp only [binRule, hj', if_true, Bool.false_eq_true, if_false]; exact .ba _ _
  | fa t l r hl hr ihl ihr =>
    intro out ho
    refine .bin .fa t l r out (.over out r.ty) r.ty (by simp) (by simp) ?_ ?_ (by simp) (ihl _ ⟨_, _, rfl⟩) (ihr _ rfl)
    · simp [binDom, Rule.resolve, Rule.resolveBin]
    · simp only [binRule, reduceCtorEq, if_false]; exact .fa _ _
  | ba t l r hl hr ihl ihr =>
    intro out ho
    refine .bin .ba t l r out l.ty (.under out l.ty) (by simp) (by simp) ?_ ?_ (by simp) (ihl _ rfl) (ihr _ (by simp [Mode.Allows, Cat.PUNC]))
    · simp [binDom, Rule.resolve, Rule.resolveBin]
    · simp only [binRule, reduceCtorEq, if_false]; exact .ba _ _
  | fc t x y z l r hn h1 h2 hl hr ihl ihr =>
    rintro out ⟨a, b, rfl⟩
    refine .bin .fc t l r _ (.over a y) (.over y b) (by simp) (by simp) ?_ ?_ (by simp) (ihl _ ⟨_, _, rfl⟩) (ihr _ ⟨_, _, rfl⟩)
    · simp [binDom, hn, Rule.resolve, Rule.resolveBin, h1, h2, Cat.left, Cat.right, Cat.result, Cat.argument, ok_bind, Rule.checkMatch]
    · simp only [binRule, reduceCtorEq, if_false]; exact .fc _ _ _
  | fcRaised t s c r hc hr ihc ihr =>
    rintro out ⟨a, b, rfl⟩
    refine .bin .fc t _ r _ (.over a (.under a c.ty)) (.over (.under a c.ty) b) (by simp) (by simp) ?_ ?_ (by simp) ?_ (ihr _ ⟨_, _, rfl⟩)
    · simp [binDom, Tree.rule, Tree.ty, Rule.resolve, Rule.resolveBin, Cat.left, Cat.right, Cat.result, Cat.argument, ok_bind, Rule.checkMatch]
    · simp only [binRule, reduceCtorEq, if_false]; exact .fc _ _ _
    · exact .un .ftr _ c _ c.ty (by simp) (Rule.C31_resolve_stable .ftr [c.ty] _ (.ftr _ _)) (.ftr _ _) (ihc _ rfl)
  | bin rule t l r h hr hne hl hr' ihl ihr =>
    intro out ho; cases ho
    obtain ⟨hrule, hdom, hgb⟩ := derivation_bin h hne hl
    exact .bin rule t l r t l.ty r.ty hr.1 hr.2 hdom (by rw [hrule]; exact h) hgb (ihl _ rfl) (ihr _ rfl)

theorem deriv_diagram {t : Tree} (h : Deriv t t.ty) :
    ∃ d w g, toDiagram t false false = .ok d ∧ d.WT ∧ d.dom = [] ∧ d.cod = t.ty.toTy ∧
      wordNames d = t.spoken ∧
      d.boxes = w ++ g ∧ (∀ b ∈ w, IsWord b) ∧ (∀ b ∈ g, WireBox b) := by
  obtain ⟨t', w, g, h1, h2, h3⟩ := deriv_spec h
  have hok := andThen_eq_ok h3.wcod
  refine ⟨_, w.boxes, g.boxes, ?_, h3.wWT.andThen h3.good.1 hok, h3.wdom, h3.gcod, ?_, ?_, h3.wbox, h3.good.2⟩
  · simp only [toDiagram, Bool.false_eq_true, if_false, ok_bind, h1, h2, hok]
  · rw [wordNames_append hok, wordNames_good h3.good.2, List.append_nil, h3.wname]
  · simp [Diagram.boxes]

/-- **C32 (type-changing rules).** Every derivation tree, with type-changing unary and punctuation rules over phrases, of whatever size, is
turned, without error, into a well-typed diagram without inputs whose output is the root category, that first puts down the words of the
sentence in order and then only cups, caps and swaps. -/
theorem C32_type_changing (t : Tree) (h : Derivation .fixed t) :
    ∃ d w g, toDiagram t false false = .ok d ∧ d.WT ∧ d.dom = [] ∧ d.cod = t.ty.toTy ∧
      wordNames d = t.spoken ∧
      d.boxes = w ++ g ∧ (∀ b ∈ w, IsWord b) ∧ (∀ b ∈ g, WireBox b) := deriv_diagram (derivation_deriv h _ rfl)

/-- "old man John likes": `N ⇒ NP` over a phrase, and a reduced relative clause `S/NP ⇒ N\N` over "John likes". -/
def reduced : Tree :=
  un .unary Cat.NP (bin .ba Cat.NOUN (bin .fa Cat.NOUN (.leaf "old" (.over Cat.NOUN Cat.NOUN)) (.leaf "man" Cat.NOUN))
    (un .unary (.under Cat.NOUN Cat.NOUN) (bin .fc (.over (.atom "s") Cat.NP)
      (un .ftr (.over (.atom "s") (.under (.atom "s") Cat.NP)) (un .unary Cat.NP (.leaf "John" Cat.NOUN)))
      (.leaf "likes" (.over (.under (.atom "s") Cat.NP) Cat.NP)))))

/-- A type-changing rule over a phrase with such a modifier is a tree for which the conversion fails: the category imposed on the modifier,
`NP\N`, is not of the form `X\X`, and the swap that is put for the change of direction does not compose. With noun phrases collapsed
into nouns it is of that form. -/
theorem C32_refuted_change_over_modifier :
    toDiagram reduced false false = .error .valueError ∧ (toDiagram reduced false true).toOption.map (·.cod) = some [⟨"n", 0⟩] := by
  decide +kernel

/-- The hypothesis is met by such trees. (Their root mode is `fixed`; the clause is a `gapped` one.) -/
example : Derivation .fixed (un .unary (.under Cat.NOUN Cat.NOUN) (bin .fc (.over (.atom "s") Cat.NP)
      (un .ftr (.over (.atom "s") (.under (.atom "s") Cat.NP)) (un .unary Cat.NP (.leaf "John" Cat.NOUN)))
      (.leaf "likes" (.over (.under (.atom "s") Cat.NP) Cat.NP)))) :=
  .gapped _ _ (.fcRaised _ _ _ _ (.change _ _ (.leaf _ _) (by decide) (.inl (by simp [Opposed, Cat.NP, Cat.NOUN])))
    (.weaken _ (.leaf _ _))) ⟨_, _, rfl⟩

example : Derivation .fixed (un .unary Cat.NP (bin .fa Cat.NOUN (.leaf "old" (.over Cat.NOUN Cat.NOUN)) (.leaf "man" Cat.NOUN))) :=
  .change _ _ (.fa _ _ _ (.weaken _ (.leaf _ _)) (.settle _ _ (.leaf _ _) (by simp [Mode.Allows, Tree.ty, Cat.NOUN, Cat.PUNC])))
    (by decide) (.inl (by simp [Opposed, Cat.NP]))

end Tree
end Lambeq
