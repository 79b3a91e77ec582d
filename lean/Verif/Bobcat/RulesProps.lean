import Verif.Bobcat.Rules

/-!
# C48: combination yields what the CCG rules prescribe
-/

namespace Lambeq
namespace Bobcat
set_option linter.unusedSimpArgs false
set_option linter.unusedVariables false
set_option linter.unusedSectionVars false

/-! ## Specification -/

/-- The two categories are the same up to variables, and up to features except those of `S`, where only `X` agrees with other features. -/
inductive Agree : BCat → BCat → Prop
  | atom {a f v r f' v' r'} : a ≠ .s → Agree (.atomic a f v r) (.atomic a f' v' r')
  | s {f v r f' v' r'} : f = f' ∨ f = .x ∨ f' = .x → Agree (.atomic .s f v r) (.atomic .s f' v' r')
  | slash {d r a v l t r' a' v' l' t'} : Agree r r' → Agree a a' → Agree (.slash d r a v l t) (.slash d r' a' v' l' t')

/-- Somewhere in the two categories, an `S[X]` faces an `S` with the feature `f`. -/
inductive Faces : BCat → BCat → Feature → Prop
  | left {f v r v' r'} : Faces (.atomic .s .x v r) (.atomic .s f v' r') f
  | right {f v r v' r'} : Faces (.atomic .s f v r) (.atomic .s .x v' r') f
  | result {d r a v l t r' a' v' l' t' f} : Faces r r' f → Faces (.slash d r a v l t) (.slash d r' a' v' l' t') f
  | argument {d r a v l t r' a' v' l' t' f} : Faces a a' f → Faces (.slash d r a v l t) (.slash d r' a' v' l' t') f

/-- The feature that a unification of two categories gives to `X`: none, or one that faces an `X`. -/
def Gives (l r : BCat) (f : Feature) : Prop := f = .none ∨ Faces l r f

/-- The written shape with the feature `f`, if it is one, put in place of `X`. -/
def Shape.subst (f : Feature) : Shape → Shape
  | .atomic a g => .atomic a (if g = .x ∧ f ≠ .none then f else g)
  | .slash d r a => .slash d (r.subst f) (a.subst f)

/-- The CCG rules on categories: `Prescribed rule left right result`. Application, composition, crossed composition, and generalised
composition of degree 2 and 3, with their categories unified; punctuation; coordination. -/
inductive Prescribed : Rule → BCat → BCat → Shape → Prop
  /-- X/Y Y ⇒ X -/
  | fa {x y v l t y' f} : Agree y y' → Gives y y' f → Prescribed .fa (.slash '/' x y v l t) y' (x.exact.subst f)
  /-- Y X\Y ⇒ X -/
  | ba {x y v l t y' f} : Agree y' y → Gives y' y f → Prescribed .ba y' (.slash '\\' x y v l t) (x.exact.subst f)
  /-- X/Y Y/Z ⇒ X/Z -/
  | fc {x y v l t y' z v' l' t' f} : Agree y y' → Gives y y' f →
      Prescribed .fc (.slash '/' x y v l t) (.slash '/' y' z v' l' t') ((Shape.slash '/' x.exact z.exact).subst f)
  /-- Y\Z X\Y ⇒ X\Z -/
  | bc {x y v l t y' z v' l' t' f} : Agree y' y → Gives y' y f →
      Prescribed .bc (.slash '\\' y' z v' l' t') (.slash '\\' x y v l t) ((Shape.slash '\\' x.exact z.exact).subst f)
  /-- Y/Z X\Y ⇒ X/Z -/
  | bx {x y v l t y' z v' l' t' f} : Agree y' y → Gives y' y f →
      Prescribed .bx (.slash '/' y' z v' l' t') (.slash '\\' x y v l t) ((Shape.slash '/' x.exact z.exact).subst f)
  /-- X/Y (Y/Z)/W ⇒ (X/Z)/W -/
  | gfc2 {x y v l t y' z v1 l1 t1 w v2 l2 t2 f} : Agree y y' → Gives y y' f →
      Prescribed .gfc (.slash '/' x y v l t) (.slash '/' (.slash '/' y' z v1 l1 t1) w v2 l2 t2)
        ((Shape.slash '/' (.slash '/' x.exact z.exact) w.exact).subst f)
  /-- X/Y ((Y/Z)/W)/U ⇒ ((X/Z)/W)/U -/
  | gfc3 {x y v l t y' z v1 l1 t1 w v2 l2 t2 u v3 l3 t3 f} : Agree y y' → Gives y y' f →
      Prescribed .gfc (.slash '/' x y v l t) (.slash '/' (.slash '/' (.slash '/' y' z v1 l1 t1) w v2 l2 t2) u v3 l3 t3)
        ((Shape.slash '/' (.slash '/' (.slash '/' x.exact z.exact) w.exact) u.exact).subst f)
  /-- (Y/Z)/W X\Y ⇒ (X/Z)/W -/
  | gbx2 {x y v l t y' z v1 l1 t1 w v2 l2 t2 f} : Agree y' y → Gives y' y f →
      Prescribed .gbx (.slash '/' (.slash '/' y' z v1 l1 t1) w v2 l2 t2) (.slash '\\' x y v l t)
        ((Shape.slash '/' (.slash '/' x.exact z.exact) w.exact).subst f)
  /-- ((Y/Z)/W)/U X\Y ⇒ ((X/Z)/W)/U -/
  | gbx3 {x y v l t y' z v1 l1 t1 w v2 l2 t2 u v3 l3 t3 f} : Agree y' y → Gives y' y f →
      Prescribed .gbx (.slash '/' (.slash '/' (.slash '/' y' z v1 l1 t1) w v2 l2 t2) u v3 l3 t3) (.slash '\\' x y v l t)
        ((Shape.slash '/' (.slash '/' (.slash '/' x.exact z.exact) w.exact) u.exact).subst f)
  /-- , X ⇒ X -/
  | lp {p x} : p.atom.isPunct → Prescribed .lp p x x.exact
  /-- X , ⇒ X -/
  | rp {p x} : p.atom.isPunct → Prescribed .rp x p x.exact
  /-- conj X ⇒ X\X -/
  | conj {c x} : c.atom = .conj ∨ c.atom = .comma ∨ c.atom = .semicolon → Prescribed .conj c x (.slash '\\' x.exact x.exact)
  /-- conj N ⇒ N -/
  | adjConj {c x} : c.atom = .conj → x.atom = .n → Prescribed .adjConj c x x.exact

/-- What generalised backward composition should give: (Y\Z)\W X\Y ⇒ (X\Z)\W. -/
inductive PrescribedGbc : BCat → BCat → Shape → Prop
  | mk {x y v l t y' z v1 l1 t1 w v2 l2 t2 f} : Agree y' y → Gives y' y f →
      PrescribedGbc (.slash '\\' (.slash '\\' y' z v1 l1 t1) w v2 l2 t2) (.slash '\\' x y v l t)
        ((Shape.slash '\\' (.slash '\\' x.exact z.exact) w.exact).subst f)

/-- A punctuation type changing rule of the grammar gives the category: the results listed under the first key that fits. -/
def Changes (hA : Atom → Feature → Int) (hC : Int → Int → Char → Int) (rules : List (BCat × ChangeRules)) (punct cat res : BCat) : Prop :=
  ∃ r ∈ rules, r.1.equals hA hC punct = true ∧ res ∈ matchRule hA hC r.2 cat

/-! ## Unification -/

theorem bindVars_feature {lm rm : Nat → Option Variable} {lv rv : Nat} {st st' : UState} (h : bindVars lm rm lv rv st = some st') :
    st'.feature = st.feature := by
  unfold bindVars at h
  split at h
  · split at h
    · cases h
    · cases h; rfl
  · cases h; rfl

theorem unifyAtoms_sound {a : Atom} {f : Feature} {a' : Atom} {f' : Feature} {st st' : UState} (h : unifyAtoms a f a' f' st = some st') :
    a = a' ∧ ((a ≠ .s ∧ st' = st) ∨ (a = .s ∧ ((f = .x ∧ st'.feature = f') ∨ (f' = .x ∧ st'.feature = f) ∨ (f = f' ∧ st' = st)))) := by
  unfold unifyAtoms at h
  by_cases ha : a = a'
  · subst ha
    by_cases hs : a = .s
    · subst hs
      by_cases h1 : f = .x
      · simp only [h1, ne_eq, not_true_eq_false, if_false, if_true, Option.some.injEq] at h
        subst h; exact ⟨rfl, .inr ⟨rfl, .inl ⟨h1, rfl⟩⟩⟩
      · by_cases h2 : f' = .x
        · simp only [h1, h2, ne_eq, not_true_eq_false, if_false, if_true, Option.some.injEq] at h
          subst h; exact ⟨rfl, .inr ⟨rfl, .inr (.inl ⟨h2, rfl⟩)⟩⟩
        · by_cases h3 : f = f'
          · subst h3
            simp only [h1, ne_eq, not_true_eq_false, if_false, if_true, Option.some.injEq] at h
            subst h; exact ⟨rfl, .inr ⟨rfl, .inr (.inr ⟨rfl, rfl⟩)⟩⟩
          · simp [h1, h2, h3] at h
    · simp only [hs, ne_eq, not_true_eq_false, if_false, Option.some.injEq] at h
      subst h; exact ⟨rfl, .inl ⟨hs, rfl⟩⟩
  · simp [ha] at h

/-- If the unification succeeds the categories agree, and the feature found is the old one or faces an `X`. -/
theorem unifyRec_sound {lm rm : Nat → Option Variable} {l r : BCat} {st st' : UState} (hl : l.Real) (h : unifyRec lm rm l r st = some st') :
    Agree l r ∧ (st'.feature = st.feature ∨ Faces l r st'.feature) := by
  induction l generalizing r st st' with
  | atomic a f v rr =>
    simp only [unifyRec] at h
    cases hu : unifyAtoms a f r.atom r.feature st with
    | none => rw [hu] at h; cases h
    | some st1 =>
      rw [hu] at h
      simp only at h
      have hf := bindVars_feature h
      obtain ⟨ha, hcase⟩ := unifyAtoms_sound hu
      cases r with
      | slash => exact absurd ha hl
      | atomic a' f' v' r' =>
        simp only [BCat.atom, BCat.feature] at ha hcase
        subst ha
        rcases hcase with ⟨hs, rfl⟩ | ⟨rfl, hx⟩
        · exact ⟨.atom hs, .inl hf⟩
        · rcases hx with ⟨rfl, hg⟩ | ⟨rfl, hg⟩ | ⟨rfl, rfl⟩
          · exact ⟨.s (.inr (.inl rfl)), .inr (by rw [hf, hg]; exact .left)⟩
          · exact ⟨.s (.inr (.inr rfl)), .inr (by rw [hf, hg]; exact .right)⟩
          · exact ⟨.s (.inl rfl), .inl hf⟩
  | slash d x y v l t ih1 ih2 =>
    cases r with
    | atomic => simp [unifyRec] at h
    | slash d' x' y' v' l' t' =>
      simp only [unifyRec] at h
      split at h
      · cases h
      · rename_i hd
        have hd := not_not.1 hd
        subst hd
        cases h1 : unifyRec lm rm x x' st with
        | none => rw [h1] at h; cases h
        | some st1 =>
          rw [h1] at h; simp only at h
          cases h2 : unifyRec lm rm y y' st1 with
          | none => rw [h2] at h; cases h
          | some st2 =>
            rw [h2] at h; simp only at h
            obtain ⟨a1, f1⟩ := ih1 hl.1 h1
            obtain ⟨a2, f2⟩ := ih2 hl.2 h2
            refine ⟨.slash a1 a2, ?_⟩
            rw [bindVars_feature h]
            rcases f2 with f2 | f2
            · rw [f2]
              rcases f1 with f1 | f1
              · exact .inl f1
              · exact .inr (.result f1)
            · exact .inr (.argument f2)

theorem addVarsL_feature (vs : List Nat) (st : UState) : (addVarsL vs st).feature = st.feature := by
  unfold addVarsL
  induction vs generalizing st with
  | nil => rfl
  | cons v vs ih => rw [List.foldl_cons, ih]; split <;> rfl

theorem addVarsR_feature (vs : List Nat) (st : UState) : (addVarsR vs st).feature = st.feature := by
  unfold addVarsR
  induction vs generalizing st with
  | nil => rfl
  | cons v vs ih => rw [List.foldl_cons, ih]; split <;> rfl

variable (ord : BCat → List Nat)

theorem unify_sound {left right : Tree} {fwd : Bool} {arg res : BCat} {st : UState} (hr : res.Real) (ha : arg.Real)
    (h : unify ord left right fwd arg res = some st) :
    if fwd then Agree res arg ∧ Gives res arg st.feature else Agree arg res ∧ Gives arg res st.feature := by
  unfold unify at h
  cases fwd with
  | true =>
    simp only [if_true] at h ⊢
    split at h
    · cases h
    · rename_i st' hu
      cases h
      obtain ⟨h1, h2⟩ := unifyRec_sound hr hu
      rw [addVarsL_feature, addVarsR_feature]
      exact ⟨h1, h2⟩
  | false =>
    simp only [Bool.false_eq_true, if_false] at h ⊢
    split at h
    · cases h
    · rename_i st' hu
      cases h
      obtain ⟨h1, h2⟩ := unifyRec_sound ha hu
      rw [addVarsR_feature, addVarsL_feature]
      exact ⟨h1, h2⟩

theorem translate_exact {m : Nat → Option Nat} {f : Feature} {c c' : BCat} (h : c.translate m f = .ok c') : c'.exact = c.exact.subst f := by
  induction c generalizing c' with
  | atomic a g v r =>
    simp only [BCat.translate] at h
    split at h
    · cases h
    · cases h; rfl
  | slash d x y v l t ih1 ih2 =>
    simp only [BCat.translate] at h
    split at h
    · cases h
    · split at h
      · cases h
      · rename_i x' hx
        split at h
        · cases h
        · rename_i y' hy
          cases h
          simp only [BCat.exact, Shape.subst, ih1 hx, ih2 hy]

/-! ## Application and composition -/

/-- **C48 (application).** -/
theorem C48_application (left right : Tree) (fwd : Bool) (t : Tree) (hl : left.cat.Real) (hr : right.cat.Real)
    (hd : if fwd then left.cat.fwd = true else right.cat.bwd = true) (h : application ord left right fwd = .ok (some t)) :
    t.rule = (if fwd then .fa else .ba) ∧ Prescribed t.rule left.cat right.cat t.cat.exact := by
  cases fwd with
  | true =>
    simp only [if_true] at hd ⊢
    unfold application at h
    simp only [if_true] at h
    cases hc : left.cat with
    | atomic => rw [hc] at h; simp at h
    | slash d x y v l tt =>
      rw [hc] at h hl hd
      simp only [BCat.fwd, BCat.dir, Option.some.injEq, decide_eq_true_eq] at hd
      subst hd
      simp only at h
      cases hu : unify ord left right true right.cat y with
      | none => rw [hu] at h; simp at h
      | some st =>
        rw [hu] at h
        simp only at h
        cases ht : x.translate (st.transRes true) st.feature with
        | error e => rw [ht] at h; simp at h
        | ok x' =>
          rw [ht] at h
          simp only [Except.ok.injEq, Option.some.injEq] at h
          subst h
          have := unify_sound ord hl.2 hr hu
          simp only [if_true] at this
          simp only [binaryCombinator, translate_exact ht]
          exact ⟨trivial, .fa this.1 this.2⟩
  | false =>
    simp only [Bool.false_eq_true, if_false] at hd ⊢
    unfold application at h
    simp only [Bool.false_eq_true, if_false] at h
    cases hc : right.cat with
    | atomic => rw [hc] at h; simp at h
    | slash d x y v l tt =>
      rw [hc] at h hr hd
      simp only [BCat.bwd, BCat.dir, Option.some.injEq, decide_eq_true_eq] at hd
      subst hd
      simp only at h
      cases hu : unify ord left right false left.cat y with
      | none => rw [hu] at h; simp at h
      | some st =>
        rw [hu] at h
        simp only at h
        cases ht : x.translate (st.transRes false) st.feature with
        | error e => rw [ht] at h; simp at h
        | ok x' =>
          rw [ht] at h
          simp only [Except.ok.injEq, Option.some.injEq] at h
          subst h
          have := unify_sound ord hr.2 hl hu
          simp only [Bool.false_eq_true, if_false] at this
          simp only [binaryCombinator, translate_exact ht]
          exact ⟨trivial, .ba this.1 this.2⟩

theorem fwd_iff {c : BCat} : c.fwd = true ↔ ∃ x y v l t, c = .slash '/' x y v l t := by
  cases c with
  | atomic => simp [BCat.fwd, BCat.dir]
  | slash d x y v l t => simp [BCat.fwd, BCat.dir]

theorem bwd_iff {c : BCat} : c.bwd = true ↔ ∃ x y v l t, c = .slash '\\' x y v l t := by
  cases c with
  | atomic => simp [BCat.bwd, BCat.dir]
  | slash d x y v l t => simp [BCat.bwd, BCat.dir]

theorem gc2_fc {left right : Tree} {t : Tree} {x y v l tt y' z v1 l1 t1 w v2 l2 t2} (hl : left.cat = .slash '/' x y v l tt)
    (hr : right.cat = .slash '/' (.slash '/' y' z v1 l1 t1) w v2 l2 t2) (hy : y.Real) (hy' : y'.Real)
    (h : gc2 ord left right .fc = .ok (some t)) : t.rule = .gfc ∧ Prescribed .gfc left.cat right.cat t.cat.exact := by
  simp only [gc2, hl, hr, decide_true, if_true] at h
  cases hu : unify ord left right true y' y with
  | none => simp [hu] at h
  | some st =>
    rw [hu] at h
    simp only at h
    split at h
    · rename_i x' z1' v1' z2' e1 e2 e3 e4
      simp only [Except.ok.injEq, Option.some.injEq] at h
      subst h
      have := unify_sound ord hy hy' hu
      simp only [if_true] at this
      refine ⟨rfl, ?_⟩
      simp only [binaryCombinator, BCat.exact, translate_exact e1, translate_exact e2, translate_exact e4, hl, hr]
      exact .gfc2 this.1 this.2
    · cases h

theorem gc2_bx {left right : Tree} {t : Tree} {x y v l tt y' z v1 l1 t1 w v2 l2 t2} (hr : right.cat = .slash '\\' x y v l tt)
    (hl : left.cat = .slash '/' (.slash '/' y' z v1 l1 t1) w v2 l2 t2) (hy : y.Real) (hy' : y'.Real)
    (h : gc2 ord left right .bx = .ok (some t)) : t.rule = .gbx ∧ Prescribed .gbx left.cat right.cat t.cat.exact := by
  simp only [gc2, hl, hr, reduceCtorEq, decide_false, if_false, Bool.false_eq_true] at h
  cases hu : unify ord left right false y' y with
  | none => simp [hu] at h
  | some st =>
    rw [hu] at h
    simp only at h
    split at h
    · rename_i x' z1' v1' z2' e1 e2 e3 e4
      simp only [Except.ok.injEq, Option.some.injEq] at h
      subst h
      have := unify_sound ord hy hy' hu
      simp only [Bool.false_eq_true, if_false] at this
      refine ⟨rfl, ?_⟩
      simp only [binaryCombinator, BCat.exact, translate_exact e1, translate_exact e2, translate_exact e4, hl, hr]
      exact .gbx2 this.1 this.2
    · cases h

theorem gc3_fc {left right : Tree} {t : Tree} {x y v l tt y' z v1 l1 t1 w v2 l2 t2 u v3 l3 t3} (hl : left.cat = .slash '/' x y v l tt)
    (hr : right.cat = .slash '/' (.slash '/' (.slash '/' y' z v1 l1 t1) w v2 l2 t2) u v3 l3 t3) (hy : y.Real) (hy' : y'.Real)
    (h : gc3 ord left right .fc = .ok (some t)) : t.rule = .gfc ∧ Prescribed .gfc left.cat right.cat t.cat.exact := by
  simp only [gc3, hl, hr, decide_true, if_true] at h
  cases hu : unify ord left right true y' y with
  | none => simp [hu] at h
  | some st =>
    rw [hu] at h
    simp only at h
    split at h
    · rename_i x' z1' v1' z2' v2' z3' e1 e2 e3 e4 e5 e6
      simp only [Except.ok.injEq, Option.some.injEq] at h
      subst h
      have := unify_sound ord hy hy' hu
      simp only [if_true] at this
      refine ⟨rfl, ?_⟩
      simp only [binaryCombinator, BCat.exact, translate_exact e1, translate_exact e2, translate_exact e4, translate_exact e6, hl, hr]
      exact .gfc3 this.1 this.2
    · cases h

theorem gc3_bx {left right : Tree} {t : Tree} {x y v l tt y' z v1 l1 t1 w v2 l2 t2 u v3 l3 t3} (hr : right.cat = .slash '\\' x y v l tt)
    (hl : left.cat = .slash '/' (.slash '/' (.slash '/' y' z v1 l1 t1) w v2 l2 t2) u v3 l3 t3) (hy : y.Real) (hy' : y'.Real)
    (h : gc3 ord left right .bx = .ok (some t)) : t.rule = .gbx ∧ Prescribed .gbx left.cat right.cat t.cat.exact := by
  simp only [gc3, hl, hr, reduceCtorEq, decide_false, if_false, Bool.false_eq_true] at h
  cases hu : unify ord left right false y' y with
  | none => simp [hu] at h
  | some st =>
    rw [hu] at h
    simp only at h
    split at h
    · rename_i x' z1' v1' z2' v2' z3' e1 e2 e3 e4 e5 e6
      simp only [Except.ok.injEq, Option.some.injEq] at h
      subst h
      have := unify_sound ord hy hy' hu
      simp only [Bool.false_eq_true, if_false] at this
      refine ⟨rfl, ?_⟩
      simp only [binaryCombinator, BCat.exact, translate_exact e1, translate_exact e2, translate_exact e4, translate_exact e6, hl, hr]
      exact .gbx3 this.1 this.2
    · cases h

theorem catchAttr_some {r : Except PyErr (Option Tree)} {t : Tree} (h : catchAttr r = .ok (some t)) : r = .ok (some t) := by
  unfold catchAttr at h
  split at h
  · cases h
  · exact h

/-- The test for generalised composition has looked at two slashes, the inner one of which is forward. -/
theorem generalisedTest_true {y c : BCat} (h : generalisedTest y c = some true) :
    sNP.doesMatch y = true ∧ ∃ d y' z v1 l1 t1 w v2 l2 t2, c = .slash d (.slash '/' y' z v1 l1 t1) w v2 l2 t2 := by
  unfold generalisedTest at h
  split at h
  · rename_i hm
    refine ⟨hm, ?_⟩
    split at h
    · rename_i d r w v l t
      split at h
      · rename_i hf
        obtain ⟨x, y, v', l', t', rfl⟩ := fwd_iff.1 hf
        exact ⟨_, _, _, _, _, _, _, _, _, _, rfl⟩
      · cases h
    · cases h
  · cases h

theorem generalised_third {c : BCat} {left right : Tree} {comp : Comp} {t : Tree} (h2 : gc2 ord left right comp = .ok none)
    (h : generalised ord left right comp c = .ok (some t)) :
    gc3 ord left right comp = .ok (some t) ∧ ∃ d1 d2 y' z v1 l1 t1 w v2 l2 t2 u v3 l3 t3,
      c = .slash d1 (.slash d2 (.slash '/' y' z v1 l1 t1) w v2 l2 t2) u v3 l3 t3 := by
  unfold generalised at h
  rw [h2] at h
  simp only at h
  split at h
  · split at h
    · split at h
      · rename_i hd
        obtain ⟨rfl, _⟩ := hd
        exact ⟨h, _, _, _, _, _, _, _, _, _, _, _, _, _, _, _, rfl⟩
      · cases h
    · cases h
  · cases h

/-- **C48 (generalised composition).** -/
theorem C48_generalised_forward (left right t : Tree) (hl : left.cat.Real) (hr : right.cat.Real) (h1 : left.cat.fwd = true)
    (h2 : right.cat.fwd = true) (h : generalisedComposition ord left right .fc = .ok (some t)) :
    t.rule = .gfc ∧ Prescribed .gfc left.cat right.cat t.cat.exact := by
  obtain ⟨x, y, v, l, tt, hcl⟩ := fwd_iff.1 h1
  obtain ⟨x2, y2, v2, l2, tt2, hcr⟩ := fwd_iff.1 h2
  rw [hcl] at hl
  simp only [generalisedComposition, if_true, hcl, BCat.argument] at h
  split at h
  · cases h
  · cases h
  · rename_i ht
    have h := catchAttr_some h
    obtain ⟨_, d, y', z, v1, l1, t1, w, v2', l2', t2', hc⟩ := generalisedTest_true ht
    rw [hc] at hcr
    simp only [BCat.slash.injEq] at hcr
    obtain ⟨rfl, _⟩ := hcr
    have hr' := hr
    rw [hc] at hr'
    cases hg : gc2 ord left right .fc with
    | error e => simp only [generalised, hg] at h; cases h
    | ok o =>
      cases o with
      | some u =>
        simp only [generalised, hg] at h
        cases h
        exact gc2_fc ord hcl hc hl.2 hr'.1.1 hg
      | none =>
        obtain ⟨hg3, d1, d2, y3, z3, v3, l3, t3, w3, v4, l4, t4, u5, v5, l5, t5, hc'⟩ := generalised_third ord hg h
        have hcc := hc
        rw [hc'] at hcc
        simp only [BCat.slash.injEq] at hcc
        obtain ⟨rfl, ⟨rfl, _⟩, _⟩ := hcc
        have hr' := hr
        rw [hc'] at hr'
        exact gc3_fc ord hcl hc' hl.2 hr'.1.1.1 hg3

theorem C48_generalised_crossed (left right t : Tree) (hl : left.cat.Real) (hr : right.cat.Real) (h1 : left.cat.fwd = true)
    (h2 : right.cat.bwd = true) (h : generalisedComposition ord left right .bx = .ok (some t)) :
    t.rule = .gbx ∧ Prescribed .gbx left.cat right.cat t.cat.exact := by
  obtain ⟨x, y, v, l, tt, hcr⟩ := bwd_iff.1 h2
  obtain ⟨x2, y2, v2, l2, tt2, hcl⟩ := fwd_iff.1 h1
  rw [hcr] at hr
  simp only [generalisedComposition, reduceCtorEq, if_false, hcr, BCat.argument] at h
  split at h
  · cases h
  · cases h
  · rename_i ht
    have h := catchAttr_some h
    obtain ⟨_, d, y', z, v1, l1, t1, w, v2', l2', t2', hc⟩ := generalisedTest_true ht
    rw [hc] at hcl
    simp only [BCat.slash.injEq] at hcl
    obtain ⟨rfl, _⟩ := hcl
    have hl' := hl
    rw [hc] at hl'
    cases hg : gc2 ord left right .bx with
    | error e => simp only [generalised, hg] at h; cases h
    | ok o =>
      cases o with
      | some u =>
        simp only [generalised, hg] at h
        cases h
        exact gc2_bx ord hcr hc hr.2 hl'.1.1 hg
      | none =>
        obtain ⟨hg3, d1, d2, y3, z3, v3, l3, t3, w3, v4, l4, t4, u5, v5, l5, t5, hc'⟩ := generalised_third ord hg h
        have hcc := hc
        rw [hc'] at hcc
        simp only [BCat.slash.injEq] at hcc
        obtain ⟨rfl, ⟨rfl, _⟩, _⟩ := hcc
        have hl' := hl
        rw [hc'] at hl'
        exact gc3_bx ord hcr hc' hr.2 hl'.1.1.1 hg3

/-- Generalised backward composition copies the category of the left tree. -/
theorem gbc_shape (left right t : Tree) (hl : left.cat.Real) (hr : right.cat.Real) (h1 : left.cat.bwd = true) (h2 : right.cat.bwd = true)
    (h : generalisedBackwardComposition ord left right = .ok (some t)) :
    t.rule = .gbc ∧ t.cat = left.cat ∧ ∃ x y v l tt y' z v1 l1 t1 w v2 l2 t2 f, right.cat = .slash '\\' x y v l tt ∧
      left.cat = .slash '\\' (.slash '\\' y' z v1 l1 t1) w v2 l2 t2 ∧ y'.exact = .atomic .s (.named "dcl") ∧ z.exact = .atomic .s (.named "dcl") ∧
      Agree y' y ∧ Gives y' y f := by
  obtain ⟨x, y, v, l, tt, hcr⟩ := bwd_iff.1 h2
  obtain ⟨r, w, v2, l2, tt2, hcl⟩ := bwd_iff.1 h1
  have hl' := hl
  rw [hcl] at hl'
  rw [hcr] at hr
  simp only [generalisedBackwardComposition, hcl, hcr] at h
  split at h
  · rename_i hm
    have hm' := (C47_matches_iff sDclSDcl r (by simp [sDclSDcl, BCat.Real]) hl'.1).1 hm
    cases r with
    | atomic => cases h
    | slash d rr z v1 l1 t1 =>
      simp only at h
      split at h
      · cases h
      · split at h
        · cases hu : unify ord left right false rr y with
          | none => rw [hu] at h; cases h
          | some st =>
            rw [hu] at h
            simp only [Except.ok.injEq, Option.some.injEq] at h
            subst h
            have hs := unify_sound ord hr.2 hl'.1.1 hu
            simp only [Bool.false_eq_true, if_false] at hs
            simp only [sDclSDcl, BCat.exact] at hm'
            generalize hA : rr.exact = A at hm'
            generalize hB : z.exact = B at hm'
            cases hm' with
            | slash i1 i2 =>
              refine ⟨rfl, hcl.symm, x, y, v, l, tt, rr, z, v1, l1, t1, w, v2, l2, tt2, st.feature, hcr, hcl, ?_, ?_, hs.1, hs.2⟩
              · rw [hA]; cases i1; rfl
              · rw [hB]; cases i2; rfl
        · cases h
  · cases h

/-- **C48 (generalised backward composition), partial.** The result is what the rule prescribes if the right category is, with the feature
substituted, `S[dcl]\Y` and the last argument has no feature `X`; the code copies the left category without looking. -/
theorem C48_generalised_backward_partial (left right t : Tree) (hl : left.cat.Real) (hr : right.cat.Real) (h1 : left.cat.bwd = true)
    (h2 : right.cat.bwd = true) (h : generalisedBackwardComposition ord left right = .ok (some t))
    (hx : ∀ x, right.cat.result = some x → ∀ f, x.exact.subst f = .atomic .s (.named "dcl"))
    (hw : ∀ w, left.cat.argument = some w → ∀ f, w.exact.subst f = w.exact) :
    t.rule = .gbc ∧ PrescribedGbc left.cat right.cat t.cat.exact := by
  obtain ⟨e1, e2, x, y, v, l, tt, y', z, v1, l1, t1, w, v2, l2, t2, f, hcr, hcl, hy, hz, ha, hg⟩ := gbc_shape ord left right t hl hr h1 h2 h
  refine ⟨e1, ?_⟩
  rw [e2]
  have hx' := hx x (by rw [hcr]; rfl) f
  have hw' := hw w (by rw [hcl]; rfl) f
  have key : left.cat.exact = ((Shape.slash '\\' (.slash '\\' x.exact z.exact) w.exact).subst f) := by
    rw [hcl]
    simp only [BCat.exact, Shape.subst, hx', hw', hy, hz]
    simp
  rw [key, hcl, hcr]
  exact .mk ha hg

/-- **C48 (composition).** -/
theorem C48_composition (left right t : Tree) (comp : Comp) (hl : left.cat.Real) (hr : right.cat.Real)
    (hd : match comp with
      | .fc => left.cat.fwd = true ∧ right.cat.fwd = true
      | .bc => left.cat.bwd = true ∧ right.cat.bwd = true
      | .bx => left.cat.fwd = true ∧ right.cat.bwd = true)
    (h : composition ord left right comp = .ok (some t)) :
    Prescribed t.rule left.cat right.cat t.cat.exact ∨ (comp = .bc ∧ t.rule = .gbc ∧ generalisedBackwardComposition ord left right = .ok (some t)) := by
  cases comp with
  | fc =>
    obtain ⟨x, y, v, l, tt, hcl⟩ := fwd_iff.1 hd.1
    obtain ⟨y', z, v2, l2, t2, hcr⟩ := fwd_iff.1 hd.2
    have hl' := hl
    have hr' := hr
    rw [hcl] at hl'
    rw [hcr] at hr'
    simp only [composition, hcl, hcr, decide_true, if_true] at h
    cases hu : unify ord left right true y' y with
    | none =>
      rw [hu] at h
      obtain ⟨e, hp⟩ := C48_generalised_forward ord left right t hl hr hd.1 hd.2 h
      rw [e]; exact .inl hp
    | some st =>
      rw [hu] at h
      simp only at h
      split at h
      · rename_i x' z' e1 e2
        simp only [Except.ok.injEq, Option.some.injEq] at h
        subst h
        have hs := unify_sound ord hl'.2 hr'.1 hu
        simp only [if_true] at hs
        left
        simp only [binaryCombinator, compositionRule, BCat.exact, translate_exact e1, translate_exact e2, hcl, hcr, reduceCtorEq, if_false]
        exact .fc hs.1 hs.2
      · cases h
  | bx =>
    obtain ⟨x, y, v, l, tt, hcr⟩ := bwd_iff.1 hd.2
    obtain ⟨y', z, v2, l2, t2, hcl⟩ := fwd_iff.1 hd.1
    have hl' := hl
    have hr' := hr
    rw [hcl] at hl'
    rw [hcr] at hr'
    simp only [composition, hcl, hcr, reduceCtorEq, decide_false, Bool.false_eq_true, if_false] at h
    cases hu : unify ord left right false y' y with
    | none =>
      rw [hu] at h
      obtain ⟨e, hp⟩ := C48_generalised_crossed ord left right t hl hr hd.1 hd.2 h
      rw [e]; exact .inl hp
    | some st =>
      rw [hu] at h
      simp only at h
      split at h
      · rename_i x' z' e1 e2
        simp only [Except.ok.injEq, Option.some.injEq] at h
        subst h
        have hs := unify_sound ord hr'.2 hl'.1 hu
        simp only [Bool.false_eq_true, if_false] at hs
        left
        simp only [binaryCombinator, compositionRule, BCat.exact, translate_exact e1, translate_exact e2, hcl, hcr, reduceCtorEq, if_false]
        exact .bx hs.1 hs.2
      · cases h
  | bc =>
    obtain ⟨x, y, v, l, tt, hcr⟩ := bwd_iff.1 hd.2
    obtain ⟨y', z, v2, l2, t2, hcl⟩ := bwd_iff.1 hd.1
    have hl' := hl
    have hr' := hr
    rw [hcl] at hl'
    rw [hcr] at hr'
    simp only [composition, hcl, hcr, reduceCtorEq, decide_false, Bool.false_eq_true, if_false] at h
    cases hu : unify ord left right false y' y with
    | none =>
      rw [hu] at h
      simp only at h
      exact .inr ⟨rfl, (gbc_shape ord left right t hl hr hd.1 hd.2 h).1, h⟩
    | some st =>
      rw [hu] at h
      simp only at h
      split at h
      · rename_i x' z' e1 e2
        simp only [Except.ok.injEq, Option.some.injEq] at h
        subst h
        have hs := unify_sound ord hr'.2 hl'.1 hu
        simp only [Bool.false_eq_true, if_false] at hs
        left
        simp only [binaryCombinator, compositionRule, BCat.exact, translate_exact e1, translate_exact e2, hcl, hcr, reduceCtorEq, if_true]
        exact .bc hs.1 hs.2
      · cases h

/-! ## All rules -/

variable (hA : Atom → Feature → Int) (hC : Int → Int → Char → Int) (g : GrammarRules)

/-- What may come out of `combine`: what the rules prescribe, what the grammar's type changing rules for punctuation give, or the result of
generalised backward composition. -/
def Allowed (left right t : Tree) : Prop :=
  Prescribed t.rule left.cat right.cat t.cat.exact ∨
  (t.rule = .lp ∧ Changes hA hC g.leftPunct left.cat right.cat t.cat) ∨
  (t.rule = .rp ∧ Changes hA hC g.rightPunct right.cat left.cat t.cat) ∨
  (t.rule = .gbc ∧ left.cat.bwd = true ∧ right.cat.bwd = true ∧ generalisedBackwardComposition ord left right = .ok (some t))

theorem backwardApplication_sound {left right t : Tree} (hl : left.cat.Real) (hr : right.cat.Real)
    (h : backwardApplication ord g left right = .ok (some t)) :
    t.rule = .ba ∧ Prescribed .ba left.cat right.cat t.cat.exact ∧ left.coordinatedOrTypeRaised = false ∧ ¬ (g.eisner = true ∧ right.bwdComp = true) := by
  unfold backwardApplication at h
  split at h
  · rename_i hg
    simp only [Bool.and_eq_true, Bool.not_eq_true', Bool.and_eq_false_iff] at hg
    obtain ⟨e, hp⟩ := C48_application ord left right false t hl hr (by simpa using hg.1.1) h
    simp only [Bool.false_eq_true, if_false] at e
    rw [e] at hp
    refine ⟨e, hp, hg.1.2, ?_⟩
    rintro ⟨h1, h2⟩
    rcases hg.2 with h' | h'
    · rw [h1] at h'; cases h'
    · rw [h2] at h'; cases h'
  · cases h

theorem forwardApplication_sound {left right t : Tree} (hl : left.cat.Real) (hr : right.cat.Real)
    (h : forwardApplication ord g left right = .ok (some t)) :
    t.rule = .fa ∧ Prescribed .fa left.cat right.cat t.cat.exact ∧ right.coordinatedOrTypeRaised = false ∧ ¬ (g.eisner = true ∧ left.fwdComp = true) := by
  unfold forwardApplication at h
  split at h
  · rename_i hg
    simp only [Bool.and_eq_true, Bool.not_eq_true', Bool.and_eq_false_iff] at hg
    obtain ⟨e, hp⟩ := C48_application ord left right true t hl hr (by simpa using hg.1.1) h
    simp only [if_true] at e
    rw [e] at hp
    refine ⟨e, hp, hg.1.2, ?_⟩
    rintro ⟨h1, h2⟩
    rcases hg.2 with h' | h'
    · rw [h1] at h'; cases h'
    · rw [h2] at h'; cases h'
  · cases h

/-- The rule of a composition. -/
theorem composition_rule {left right t : Tree} {comp : Comp} (h : composition ord left right comp = .ok (some t)) :
    match comp with
    | .fc => t.rule = .fc ∨ t.rule = .gfc
    | .bx => t.rule = .bx ∨ t.rule = .gbx
    | .bc => t.rule = .bc ∨ t.rule = .gbc := by
  have g2 : ∀ comp t, gc2 ord left right comp = .ok (some t) → t.rule = if comp = .fc then .gfc else .gbx := by
    intro comp t h
    unfold gc2 at h
    simp only at h
    split at h
    · split at h
      · cases h
      · split at h
        · cases h; simp only [binaryCombinator, decide_eq_true_eq]
        · cases h
    · cases h
  have g3 : ∀ comp t, gc3 ord left right comp = .ok (some t) → t.rule = if comp = .fc then .gfc else .gbx := by
    intro comp t h
    unfold gc3 at h
    simp only at h
    split at h
    · split at h
      · cases h
      · split at h
        · cases h; simp only [binaryCombinator, decide_eq_true_eq]
        · cases h
    · cases h
  have gg : ∀ comp t, generalisedComposition ord left right comp = .ok (some t) → t.rule = if comp = .fc then .gfc else .gbx := by
    intro comp t h
    unfold generalisedComposition at h
    simp only at h
    split at h
    · cases h
    · split at h
      · cases h
      · cases h
      · have h := catchAttr_some h
        cases hg : gc2 ord left right comp with
        | error e => simp only [generalised, hg] at h; cases h
        | ok o =>
          cases o with
          | some u =>
            simp only [generalised, hg] at h
            cases h
            exact g2 _ _ hg
          | none => exact g3 _ _ (generalised_third ord hg h).1
  have gb : ∀ t, generalisedBackwardComposition ord left right = .ok (some t) → t.rule = .gbc := by
    intro t h
    unfold generalisedBackwardComposition at h
    split at h
    · split at h
      · split at h
        · split at h
          · cases h
          · split at h
            · split at h
              · cases h
              · cases h; rfl
            · cases h
        · cases h
      · cases h
    · cases h
  unfold composition at h
  simp only at h
  split at h
  · split at h
    · cases comp with
      | fc => right; simpa using gg .fc t h
      | bx => right; simpa using gg .bx t h
      | bc => right; exact gb t h
    · split at h
      · cases h
        cases comp <;> exact .inl rfl
      · cases h
  · cases h

theorem forwardComposition_sound {left right t : Tree} (hl : left.cat.Real) (hr : right.cat.Real)
    (h : forwardComposition ord g left right = .ok (some t)) :
    (t.rule = .fc ∨ t.rule = .gfc) ∧ Allowed ord hA hC g left right t ∧ ¬ (g.eisner = true ∧ left.fwdComp = true) := by
  unfold forwardComposition at h
  split at h
  · rename_i hg
    simp only [Bool.and_eq_true, Bool.not_eq_true', Bool.and_eq_false_iff] at hg
    refine ⟨composition_rule ord h, ?_, ?_⟩
    · rcases C48_composition ord left right t .fc hl hr hg.1 h with h' | ⟨h', _⟩
      · exact .inl h'
      · cases h'
    · rintro ⟨h1, h2⟩
      rcases hg.2 with h' | h'
      · rw [h1] at h'; cases h'
      · rw [h2] at h'; cases h'
  · cases h

theorem backwardComposition_sound {left right t : Tree} (hl : left.cat.Real) (hr : right.cat.Real)
    (h : backwardComposition ord g left right = .ok (some t)) :
    (t.rule = .bc ∨ t.rule = .gbc) ∧ Allowed ord hA hC g left right t ∧ ¬ (g.eisner = true ∧ right.bwdComp = true) ∧
      left.coordinated = false ∧ right.coordinated = false := by
  unfold backwardComposition at h
  split at h
  · rename_i hg
    simp only [Bool.and_eq_true, Bool.not_eq_true', Bool.and_eq_false_iff] at hg
    refine ⟨composition_rule ord h, ?_, ?_, hg.1.1.2, hg.1.2⟩
    · rcases C48_composition ord left right t .bc hl hr hg.1.1.1 h with h' | ⟨_, h', h2⟩
      · exact .inl h'
      · exact .inr (.inr (.inr ⟨h', hg.1.1.1.1, hg.1.1.1.2, h2⟩))
    · rintro ⟨h1, h2⟩
      rcases hg.2 with h' | h'
      · rw [h1] at h'; cases h'
      · rw [h2] at h'; cases h'
  · cases h

theorem backwardCrossComposition_sound {left right t : Tree} (hl : left.cat.Real) (hr : right.cat.Real)
    (h : backwardCrossComposition ord left right = .ok (some t)) :
    (t.rule = .bx ∨ t.rule = .gbx) ∧ Allowed ord hA hC g left right t ∧ right.coordinated = false := by
  unfold backwardCrossComposition at h
  split at h
  · rename_i hg
    simp only [Bool.and_eq_true, Bool.not_eq_true', Bool.and_eq_false_iff] at hg
    refine ⟨composition_rule ord h, ?_, hg.1.2⟩
    rcases C48_composition ord left right t .bx hl hr hg.1.1 h with h' | ⟨h', _⟩
    · exact .inl h'
    · cases h'
  · cases h

theorem coordinate_sound {left right t : Tree} (h : coordinate left right = .ok t) :
    t.rule = .conj ∧ t.cat.exact = .slash '\\' right.cat.exact right.cat.exact := by
  unfold coordinate at h
  split at h
  · cases h
  · cases h; exact ⟨rfl, rfl⟩

theorem coordination_sound {left right t : Tree} (h : coordination left right = .ok (some t)) :
    t.rule = .conj ∧ Allowed ord hA hC g left right t ∧ right.coordinatedOrTypeRaised = false := by
  unfold coordination at h
  split at h
  · rename_i hc
    split at h
    · cases h
    · rename_i t' ht
      cases h
      obtain ⟨e1, e2⟩ := coordinate_sound ht
      refine ⟨e1, .inl ?_, hc.2⟩
      rw [e1, e2]
      exact .conj (.inl hc.1)
  · cases h

theorem typeChangeCat_sound {rule : Rule} {left right t : Tree} {cat : BCat} {rules : ChangeRules}
    (h : t ∈ typeChangeCat hA hC rule cat left (some right) rules) : t.rule = rule ∧ t.cat ∈ matchRule hA hC rules cat := by
  unfold typeChangeCat at h
  obtain ⟨c, hc, rfl⟩ := List.mem_map.1 h
  exact ⟨rfl, hc⟩

theorem lookupCat_some {T : Type} {d : List (BCat × T)} {c : BCat} {x : T} (h : lookupCat hA hC d c = some x) :
    ∃ r ∈ d, r.1.equals hA hC c = true ∧ r.2 = x := by
  unfold lookupCat at h
  obtain ⟨r, hr, rfl⟩ := Option.map_eq_some_iff.1 h
  have hp := List.find?_some hr
  exact ⟨r, List.mem_of_find?_eq_some hr, hp, rfl⟩

/-- The restrictions on the rules: what the trees combined by each rule may not be. -/
def Restricted (left right t : Tree) : Prop :=
  (t.rule = .fa ∨ t.rule = .fc ∨ t.rule = .gfc → ¬ (g.eisner = true ∧ left.fwdComp = true)) ∧
  (t.rule = .ba ∨ t.rule = .bc ∨ t.rule = .gbc → ¬ (g.eisner = true ∧ right.bwdComp = true)) ∧
  (t.rule = .fa → right.coordinatedOrTypeRaised = false) ∧
  (t.rule = .ba → left.coordinatedOrTypeRaised = false) ∧
  (t.rule = .conj → right.coordinatedOrTypeRaised = false) ∧
  (t.rule = .bc ∨ t.rule = .gbc → left.coordinated = false ∧ right.coordinated = false) ∧
  (t.rule = .bx ∨ t.rule = .gbx → right.coordinated = false)

theorem leftPunct_sound {left right : Tree} {ts : List Tree} (hp : left.cat.atom.isPunct = true) (h : leftPunct hA hC g left right = .ok ts) :
    ∀ t ∈ ts, Allowed ord hA hC g left right t ∧ Restricted g left right t := by
  intro t ht
  have hpass : ∀ t, t ∈ (if right.coordinatedOrTypeRaised then [] else [passThrough .lp right]) →
      Allowed ord hA hC g left right t ∧ Restricted g left right t := by
    intro t ht
    split at ht
    · simp at ht
    · simp only [List.mem_singleton] at ht
      subst ht
      exact ⟨.inl (.lp hp), by simp [Restricted, passThrough]⟩
  have hchange : ∀ t, t ∈ (match lookupCat hA hC g.leftPunct left.cat with
      | none => []
      | some rules => typeChangeCat hA hC .lp right.cat left (some right) rules) → Allowed ord hA hC g left right t ∧ Restricted g left right t := by
    intro t ht
    split at ht
    · simp at ht
    · rename_i rules hr
      obtain ⟨r, hrm, he, rfl⟩ := lookupCat_some hA hC hr
      obtain ⟨e1, e2⟩ := typeChangeCat_sound hA hC ht
      exact ⟨.inr (.inl ⟨e1, r, hrm, he, e2⟩), by simp [Restricted, e1]⟩
  unfold leftPunct at h
  simp only at h
  split at h
  · rename_i hc
    split at h
    · cases h
    · rename_i t' ht'
      cases h
      rcases List.mem_append.1 ht with ht | ht
      · exact hpass t ht
      · rcases List.mem_cons.1 ht with rfl | ht
        · obtain ⟨e1, e2⟩ := coordinate_sound ht'
          refine ⟨.inl ?_, by simp [Restricted, e1, hc.2.1]⟩
          rw [e1, e2]
          exact .conj (.inr hc.1)
        · exact hchange t ht
  · cases h
    rcases List.mem_append.1 ht with ht | ht
    · exact hpass t ht
    · exact hchange t ht

theorem rightPunct_sound {left right : Tree} (hp : right.cat.atom.isPunct = true) :
    ∀ t ∈ rightPunct hA hC g left right, Allowed ord hA hC g left right t ∧ Restricted g left right t := by
  intro t ht
  unfold rightPunct at ht
  rcases List.mem_append.1 ht with ht | ht
  · split at ht
    · simp at ht
    · simp only [List.mem_singleton] at ht
      subst ht
      exact ⟨.inl (.rp hp), by simp [Restricted, passThrough]⟩
  · split at ht
    · simp at ht
    · split at ht
      · simp at ht
      · rename_i rules hr
        obtain ⟨r, hrm, he, rfl⟩ := lookupCat_some hA hC hr
        obtain ⟨e1, e2⟩ := typeChangeCat_sound hA hC ht
        exact ⟨.inr (.inr (.inl ⟨e1, r, hrm, he, e2⟩)), by simp [Restricted, e1]⟩

theorem asList_ok {r : Except PyErr (Option Tree)} {ts : List Tree} (h : asList r = .ok ts) : ∀ t ∈ ts, r = .ok (some t) := by
  unfold asList at h
  split at h
  · cases h
  · cases h
    intro t ht
    simp only [Option.mem_toList, Option.mem_def] at ht
    rw [ht]

theorem orElse_ok {f f' : Except PyErr (Option Tree)} {t : Tree} (h : orElse f f' = .ok (some t)) : f = .ok (some t) ∨ f' = .ok (some t) := by
  unfold orElse at h
  split at h
  · exact .inr h
  · exact .inl h

theorem kind_punct {c : BCat} (h : CatKind.of c = .punct) : c.atom.isPunct = true := by
  unfold CatKind.of at h
  by_contra hn
  simp only [hn, if_false] at h
  split at h
  · cases h
  · split at h
    · cases h
    · split at h <;> cases h

/-- **C48.** For every grammar and any two trees, every tree that `combine` returns has the category that its rule prescribes (or is given
by the grammar's type changing rules, or is a generalised backward composition, see `C48_generalised_backward_partial`), and it respects
the restrictions on the rules, in particular Eisner's normal form; and only pairs of categories in the grammar's list combine. -/
theorem C48_combine (left right : Tree) (ts : List Tree) (hl : left.cat.Real) (hr : right.cat.Real)
    (h : combine ord hA hC g left right = .ok ts) :
    (∀ t ∈ ts, Allowed ord hA hC g left right t ∧ Restricted g left right t) ∧
    (ts ≠ [] → ∃ p ∈ g.instances, p.1.equals hA hC left.cat = true ∧ p.2.equals hA hC right.cat = true) := by
  refine ⟨?_, ?_⟩
  swap
  · intro hne
    unfold combine at h
    split at h
    · rename_i hi
      obtain ⟨p, hp, he⟩ := List.any_eq_true.1 hi
      exact ⟨p, hp, by simpa using he⟩
    · cases h; exact absurd rfl hne
  intro t ht
  have ba : ∀ t, backwardApplication ord g left right = .ok (some t) → Allowed ord hA hC g left right t ∧ Restricted g left right t := by
    intro t h
    obtain ⟨e, h1, h2, h3⟩ := backwardApplication_sound ord g hl hr h
    exact ⟨.inl (by rw [e]; exact h1), by simp only [Restricted, e]; simp [h2]; simpa using h3⟩
  have fa : ∀ t, forwardApplication ord g left right = .ok (some t) → Allowed ord hA hC g left right t ∧ Restricted g left right t := by
    intro t h
    obtain ⟨e, h1, h2, h3⟩ := forwardApplication_sound ord g hl hr h
    exact ⟨.inl (by rw [e]; exact h1), by simp only [Restricted, e]; simp [h2]; simpa using h3⟩
  have fc : ∀ t, forwardComposition ord g left right = .ok (some t) → Allowed ord hA hC g left right t ∧ Restricted g left right t := by
    intro t h
    obtain ⟨e, h1, h2⟩ := forwardComposition_sound ord hA hC g hl hr h
    exact ⟨h1, by rcases e with e | e <;> (simp only [Restricted, e]; simp; simpa using h2)⟩
  have bc : ∀ t, backwardComposition ord g left right = .ok (some t) → Allowed ord hA hC g left right t ∧ Restricted g left right t := by
    intro t h
    obtain ⟨e, h1, h2, h3, h4⟩ := backwardComposition_sound ord hA hC g hl hr h
    exact ⟨h1, by rcases e with e | e <;> (simp only [Restricted, e]; simp [h3, h4]; simpa using h2)⟩
  have bx : ∀ t, backwardCrossComposition ord left right = .ok (some t) → Allowed ord hA hC g left right t ∧ Restricted g left right t := by
    intro t h
    obtain ⟨e, h1, h2⟩ := backwardCrossComposition_sound ord hA hC g hl hr h
    exact ⟨h1, by rcases e with e | e <;> (simp only [Restricted, e]; simp [h2])⟩
  have co : ∀ t, coordination left right = .ok (some t) → Allowed ord hA hC g left right t ∧ Restricted g left right t := by
    intro t h
    obtain ⟨e, h1, h2⟩ := coordination_sound ord hA hC g h
    exact ⟨h1, by simp only [Restricted, e]; simp [h2]⟩
  unfold combine at h
  split at h
  · have hkl : ∀ k, CatKind.of left.cat = k → k = .punct → left.cat.atom.isPunct = true := fun k h1 h2 => kind_punct (h1.trans h2)
    have hkr : ∀ k, CatKind.of right.cat = k → k = .punct → right.cat.atom.isPunct = true := fun k h1 h2 => kind_punct (h1.trans h2)
    generalize hk1 : CatKind.of left.cat = k1 at h
    generalize hk2 : CatKind.of right.cat = k2 at h
    cases k1 <;> cases k2 <;> simp only [combineKinds, CatKind.isStandard, if_true, if_false, Bool.false_eq_true] at h
    case atom.backward => exact ba t (asList_ok h t ht)
    case forward.atom => exact fa t (asList_ok h t ht)
    case forward.conj => exact fa t (asList_ok h t ht)
    case forward.forward => exact (orElse_ok (asList_ok h t ht)).elim (fa t) (fc t)
    case forward.backward => exact (orElse_ok (asList_ok h t ht)).elim (ba t) (fun h => (orElse_ok h).elim (fa t) (bx t))
    case backward.backward => exact (orElse_ok (asList_ok h t ht)).elim (ba t) (bc t)
    case conj.atom =>
      split at h
      · cases h
      · rename_i o ho
        cases h
        rcases List.mem_append.1 ht with ht | ht
        · simp only [Option.mem_toList, Option.mem_def] at ht
          subst ht
          exact co t ho
        · simp only [Option.mem_toList, Option.mem_def, adjectivalConj] at ht
          split at ht
          · rename_i hc
            cases ht
            exact ⟨.inl (.adjConj hc.1 hc.2), by simp [Restricted, passThrough]⟩
          · cases ht
    case conj.backward => exact (orElse_ok (asList_ok h t ht)).elim (ba t) (co t)
    case conj.forward => exact (orElse_ok (asList_ok h t ht)).elim (ba t) (co t)
    case punct.atom => exact leftPunct_sound ord hA hC g (hkl _ hk1 rfl) h t ht
    case punct.backward => exact leftPunct_sound ord hA hC g (hkl _ hk1 rfl) h t ht
    case punct.forward => exact leftPunct_sound ord hA hC g (hkl _ hk1 rfl) h t ht
    case atom.punct => cases h; exact rightPunct_sound ord hA hC g (hkr _ hk2 rfl) t ht
    case backward.punct => cases h; exact rightPunct_sound ord hA hC g (hkr _ hk2 rfl) t ht
    case forward.punct => cases h; exact rightPunct_sound ord hA hC g (hkr _ hk2 rfl) t ht
    all_goals (cases h; simp at ht)
  · cases h; simp at ht

/-! ## Refutations and examples -/

/-- The order of the variables used in the examples. -/
def demoOrd (c : BCat) : List Nat := c.vars.dedup

/-- A lexical tree, tree.py:295-300. -/
def lexical (c : BCat) (w : Nat) : Tree := ⟨.l, c, put (fun _ => none) c.var ⟨[w], true⟩⟩

def demoNP (v : Nat) : BCat := .atomic .np .none v none
def demoS (f : Feature) (v : Nat) : BCat := .atomic .s f v none

/-- `likes := ((S[dcl]\NP)/NP)` and `Mary := NP` combine to `S[dcl]\NP`, by forward application. -/
example :
    let likes := lexical (.slash '/' (.slash '\\' (demoS (.named "dcl") 1) (demoNP 2) 1 none 0) (demoNP 3) 1 none 0) 1
    let mary := lexical (demoNP 1) 2
    likes.cat.Real ∧ mary.cat.Real ∧ likes.cat.fwd = true ∧
    (application demoOrd likes mary true).toOption.map (Option.map (fun t => (t.rule, t.cat.exact))) =
      some (some (.fa, .slash '\\' (.atomic .s (.named "dcl")) (.atomic .np .none))) := by
  refine ⟨by simp [lexical, BCat.Real, demoS, demoNP], by simp [lexical, BCat.Real, demoNP], by decide, by decide +kernel⟩

/-- A whole grammar with one rule instance: `(S[X]/(S[X]\NP))`, type raised, composes forward with `(S[dcl]\NP)/NP` to `S[dcl]/NP`. -/
example :
    let tr : Tree := ⟨.ftr, .slash '/' (demoS .x 2) (.slash '\\' (demoS .x 2) (demoNP 1) 2 none 0) 2 none 0, put (fun _ => none) 1 ⟨[1], true⟩⟩
    let likes := lexical (.slash '/' (.slash '\\' (demoS (.named "dcl") 1) (demoNP 2) 1 none 0) (demoNP 3) 1 none 0) 2
    let g : GrammarRules := ⟨true, [(tr.cat, likes.cat)], [], [], [], []⟩
    tr.cat.Real ∧ likes.cat.Real ∧
    (combine demoOrd (fun _ _ => 0) (fun _ _ _ => 0) g tr likes).toOption.map (List.map (fun t => (t.rule, t.cat.exact))) =
      some [(.fc, .slash '/' (.atomic .s (.named "dcl")) (.atomic .np .none))] := by
  refine ⟨by simp [BCat.Real, demoS, demoNP], by simp [lexical, BCat.Real, demoS, demoNP], by decide +kernel⟩

/-- Features are not unified soundly: `S[X]/(S[X]\S[X])` applied to `S[dcl]\S[ng]` gives `S[ng]`, although no feature for `X` makes the
argument `S[dcl]\S[ng]`. -/
theorem C48_refuted_feature_conflict :
    ∃ left right t : Tree, left.cat.Real ∧ right.cat.Real ∧ application demoOrd left right true = .ok (some t) ∧
      t.cat.exact = .atomic .s (.named "ng") ∧ right.cat.exact = .slash '\\' (.atomic .s (.named "dcl")) (.atomic .s (.named "ng")) ∧
      ∃ y, left.cat.argument = some y ∧ ∀ f, y.exact.subst f ≠ right.cat.exact := by
  refine ⟨lexical (.slash '/' (demoS .x 1) (.slash '\\' (demoS .x 1) (demoS .x 2) 3 none 0) 4 none 0) 1,
    lexical (.slash '\\' (demoS (.named "dcl") 1) (demoS (.named "ng") 2) 3 none 0) 2, _, by simp [lexical, BCat.Real, demoS], by simp [lexical, BCat.Real, demoS], rfl, ?_, rfl, _, rfl, ?_⟩
  · decide +kernel
  · intro f h
    simp only [demoS, lexical, BCat.exact, Shape.subst, Shape.slash.injEq, Shape.atomic.injEq, true_and] at h
    obtain ⟨h1, h2⟩ := h
    rw [h1] at h2
    simp at h2

/-- Generalised backward composition returns the left category whatever the right one is: `(S[dcl]\S[dcl])\NP` and `NP\S[dcl]` compose to
`(S[dcl]\S[dcl])\NP`, where the rule prescribes `(NP\S[dcl])\NP`. -/
theorem C48_refuted_gbc :
    ∃ left right t : Tree, left.cat.Real ∧ right.cat.Real ∧ left.cat.bwd = true ∧ right.cat.bwd = true ∧
      generalisedBackwardComposition demoOrd left right = .ok (some t) ∧ ¬ PrescribedGbc left.cat right.cat t.cat.exact := by
  refine ⟨lexical (.slash '\\' (.slash '\\' (demoS (.named "dcl") 1) (demoS (.named "dcl") 2) 1 none 0) (demoNP 3) 1 none 0) 1,
    lexical (.slash '\\' (demoNP 1) (demoS (.named "dcl") 2) 1 none 0) 2, _, by simp [lexical, BCat.Real, demoS, demoNP], by simp [lexical, BCat.Real, demoS, demoNP],
    by decide, by decide, rfl, ?_⟩
  intro h
  generalize hs : BCat.exact _ = s at h
  cases h
  simp [BCat.exact, Shape.subst, binaryCombinator, lexical, demoS, demoNP] at hs

/-- A case of `C48_generalised_backward_partial`: `(S[dcl]\S[dcl])\NP` and `S[dcl]\S[dcl]`. -/
example :
    let left := lexical (.slash '\\' (.slash '\\' (demoS (.named "dcl") 1) (demoS (.named "dcl") 2) 1 none 0) (demoNP 3) 1 none 0) 1
    let right := lexical (.slash '\\' (demoS (.named "dcl") 1) (demoS (.named "dcl") 2) 1 none 0) 2
    (generalisedBackwardComposition demoOrd left right).toOption.map (Option.map (fun t => t.cat.exact)) =
      some (some (.slash '\\' (.slash '\\' (.atomic .s (.named "dcl")) (.atomic .s (.named "dcl"))) (.atomic .np .none))) ∧
    (∀ x, right.cat.result = some x → ∀ f, x.exact.subst f = .atomic .s (.named "dcl")) ∧
    (∀ w, left.cat.argument = some w → ∀ f, w.exact.subst f = w.exact) := by
  refine ⟨by decide +kernel, ?_, ?_⟩
  · intro x hx f
    simp only [lexical, BCat.result, Option.some.injEq] at hx
    subst hx
    simp [demoS, BCat.exact, Shape.subst]
  · intro x hx f
    simp only [lexical, BCat.argument, Option.some.injEq] at hx
    subst hx
    simp [demoNP, BCat.exact, Shape.subst]

end Bobcat
end Lambeq
