import Verif.Bobcat.RulesProps
import Mathlib.Data.List.Dedup

/-!
# C62: combining trees does not raise
-/

namespace Lambeq
namespace Bobcat
set_option linter.unusedSimpArgs false
set_option linter.unusedVariables false
set_option linter.unusedSectionVars false

/-! ## Specification -/

/-- Every node of the category has a variable, as in the marked-up categories of the grammar. -/
def BCat.Marked : BCat → Prop
  | .atomic _ _ v _ => v ≠ 0
  | .slash _ r a v _ _ => v ≠ 0 ∧ r.Marked ∧ a.Marked

/-- A tree with a marked category, or a coordination with the category `X\X` for a marked `X` (its outer slash has no variable). -/
def Tree.Good (t : Tree) : Prop :=
  t.cat.Real ∧ (t.rule ≠ .conj → t.cat.Marked) ∧
  (t.rule = .conj → ∃ x, t.cat = .slash '\\' x x 0 none 0 ∧ x.Real ∧ x.Marked)

/-- All categories that the grammar's type changing and type raising rules give are marked. -/
def GrammarRules.Good (g : GrammarRules) : Prop :=
  (∀ r ∈ g.typeRaising, ∀ c ∈ r.2, c.Real ∧ c.Marked) ∧ (∀ r ∈ g.unary, ∀ c ∈ r.2, c.Real ∧ c.Marked) ∧
  (∀ r ∈ g.leftPunct, ∀ q ∈ r.2, ∀ c ∈ q.2, c.Real ∧ c.Marked) ∧ (∀ r ∈ g.rightPunct, ∀ q ∈ r.2, ∀ c ∈ q.2, c.Real ∧ c.Marked)

/-- The tree has a head word. -/
def Tree.HasHead (t : Tree) : Prop := ∃ v, t.headVar = some v ∧ v.fillers ≠ []

/-! ## Unification and translation -/

structure Inv (st : UState) : Prop where
  num : st.num ≠ 0
  left : ∀ v w, st.transL v = some w → w ≠ 0
  right : ∀ v w, st.transR v = some w → w ≠ 0

theorem put_some {α : Type} {m : Nat → Option α} {k v : Nat} {a w : α} (h : put m k a v = some w) : (v = k ∧ w = a) ∨ m v = some w := by
  unfold put at h
  split at h
  · rename_i hk; cases h; exact .inl ⟨hk, rfl⟩
  · exact .inr h

theorem init_inv : Inv UState.init := ⟨by simp [UState.init], by simp [UState.init], by simp [UState.init]⟩

theorem bindVars_inv {lm rm : Nat → Option Variable} {lv rv : Nat} {st st' : UState} (hi : Inv st) (h : bindVars lm rm lv rv st = some st') :
    Inv st' := by
  unfold bindVars at h
  split at h
  · split at h
    · cases h
    · cases h
      refine ⟨by simp, ?_, ?_⟩
      · intro v w hw
        rcases put_some hw with ⟨_, rfl⟩ | hw
        · exact hi.num
        · exact hi.left v w hw
      · intro v w hw
        rcases put_some hw with ⟨_, rfl⟩ | hw
        · exact hi.num
        · exact hi.right v w hw
  · cases h; exact hi

theorem unifyAtoms_trans {a : Atom} {f : Feature} {a' : Atom} {f' : Feature} {st st' : UState} (h : unifyAtoms a f a' f' st = some st') :
    st'.num = st.num ∧ st'.transL = st.transL ∧ st'.transR = st.transR := by
  unfold unifyAtoms at h
  split at h
  · cases h
  · split at h
    · split at h
      · cases h; exact ⟨rfl, rfl, rfl⟩
      · split at h
        · cases h; exact ⟨rfl, rfl, rfl⟩
        · split at h
          · cases h
          · cases h; exact ⟨rfl, rfl, rfl⟩
    · cases h; exact ⟨rfl, rfl, rfl⟩

theorem unifyRec_inv {lm rm : Nat → Option Variable} {l r : BCat} {st st' : UState} (hi : Inv st) (h : unifyRec lm rm l r st = some st') :
    Inv st' := by
  induction l generalizing r st st' with
  | atomic a f v rr =>
    simp only [unifyRec] at h
    split at h
    · cases h
    · rename_i st1 hu
      obtain ⟨e1, e2, e3⟩ := unifyAtoms_trans hu
      exact bindVars_inv ⟨by rw [e1]; exact hi.num, by rw [e2]; exact hi.left, by rw [e3]; exact hi.right⟩ h
  | slash d x y v l t ih1 ih2 =>
    cases r with
    | atomic => simp [unifyRec] at h
    | slash d' x' y' v' l' t' =>
      simp only [unifyRec] at h
      split at h
      · cases h
      · split at h
        · cases h
        · rename_i st1 h1
          split at h
          · cases h
          · rename_i st2 h2
            exact bindVars_inv (ih2 (ih1 hi h1) h2) h

theorem addVarsL_inv (vs : List Nat) (st : UState) (hi : Inv st) :
    Inv (addVarsL vs st) ∧ (addVarsL vs st).transR = st.transR ∧ (∀ v, (st.transL v).isSome → ((addVarsL vs st).transL v).isSome) ∧
      ∀ v ∈ vs, ((addVarsL vs st).transL v).isSome := by
  induction vs generalizing st with
  | nil => exact ⟨hi, rfl, fun _ h => h, by simp⟩
  | cons a vs ih =>
    have step : addVarsL (a :: vs) st = addVarsL vs (if (st.transL a).isNone then
      { st with transL := put st.transL a st.num, oldL := put st.oldL st.num a, num := st.num + 1 } else st) := rfl
    rw [step]
    by_cases hn : (st.transL a).isNone
    · rw [if_pos hn]
      obtain ⟨h1, h2, h3, h4⟩ := ih { st with transL := put st.transL a st.num, oldL := put st.oldL st.num a, num := st.num + 1 } ⟨by simp, by
        intro v w hw
        rcases put_some hw with ⟨_, rfl⟩ | hw
        · exact hi.num
        · exact hi.left v w hw, hi.right⟩
      refine ⟨h1, h2, ?_, ?_⟩
      · intro v hv
        apply h3
        simp only [put]
        split
        · rfl
        · exact hv
      · intro v hv
        rcases List.mem_cons.1 hv with rfl | hv
        · apply h3; simp [put]
        · exact h4 v hv
    · rw [if_neg hn]
      obtain ⟨h1, h2, h3, h4⟩ := ih st hi
      refine ⟨h1, h2, h3, ?_⟩
      intro v hv
      rcases List.mem_cons.1 hv with rfl | hv
      · apply h3
        cases hh : st.transL v with
        | none => simp [hh] at hn
        | some => rfl
      · exact h4 v hv

theorem addVarsR_inv (vs : List Nat) (st : UState) (hi : Inv st) :
    Inv (addVarsR vs st) ∧ (addVarsR vs st).transL = st.transL ∧ (∀ v, (st.transR v).isSome → ((addVarsR vs st).transR v).isSome) ∧
      ∀ v ∈ vs, ((addVarsR vs st).transR v).isSome := by
  induction vs generalizing st with
  | nil => exact ⟨hi, rfl, fun _ h => h, by simp⟩
  | cons a vs ih =>
    have step : addVarsR (a :: vs) st = addVarsR vs (if (st.transR a).isNone then
      { st with transR := put st.transR a st.num, oldR := put st.oldR st.num a, num := st.num + 1 } else st) := rfl
    rw [step]
    by_cases hn : (st.transR a).isNone
    · rw [if_pos hn]
      obtain ⟨h1, h2, h3, h4⟩ := ih { st with transR := put st.transR a st.num, oldR := put st.oldR st.num a, num := st.num + 1 } ⟨by simp, hi.left, by
        intro v w hw
        rcases put_some hw with ⟨_, rfl⟩ | hw
        · exact hi.num
        · exact hi.right v w hw⟩
      refine ⟨h1, h2, ?_, ?_⟩
      · intro v hv
        apply h3
        simp only [put]
        split
        · rfl
        · exact hv
      · intro v hv
        rcases List.mem_cons.1 hv with rfl | hv
        · apply h3; simp [put]
        · exact h4 v hv
    · rw [if_neg hn]
      obtain ⟨h1, h2, h3, h4⟩ := ih st hi
      refine ⟨h1, h2, h3, ?_⟩
      intro v hv
      rcases List.mem_cons.1 hv with rfl | hv
      · apply h3
        cases hh : st.transR v with
        | none => simp [hh] at hn
        | some => rfl
      · exact h4 v hv

variable (ord : BCat → List Nat) (hord : ∀ c v, v ∈ ord c ↔ v ∈ c.vars)

/-- Defined on the variables of `c`, with values that are not 0. -/
def Defined (m : Nat → Option Nat) (c : BCat) : Prop := ∀ v ∈ c.vars, ∃ w, m v = some w ∧ w ≠ 0

include hord in
theorem unify_defined {left right : Tree} {fwd : Bool} {arg res : BCat} {st : UState} (h : unify ord left right fwd arg res = some st) :
    Defined st.transL left.cat ∧ Defined st.transR right.cat := by
  have key : Inv st ∧ (∀ v ∈ ord left.cat, (st.transL v).isSome) ∧ (∀ v ∈ ord right.cat, (st.transR v).isSome) := by
    unfold unify at h
    split at h
    · split at h
      · cases h
      · rename_i st1 hu
        cases h
        have i1 := unifyRec_inv init_inv hu
        obtain ⟨j1, j2, j3, j4⟩ := addVarsR_inv (ord right.cat) st1 i1
        obtain ⟨k1, k2, k3, k4⟩ := addVarsL_inv (ord left.cat) _ j1
        exact ⟨k1, k4, by rw [k2]; exact j4⟩
    · split at h
      · cases h
      · rename_i st1 hu
        cases h
        have i1 := unifyRec_inv init_inv hu
        obtain ⟨j1, j2, j3, j4⟩ := addVarsL_inv (ord left.cat) st1 i1
        obtain ⟨k1, k2, k3, k4⟩ := addVarsR_inv (ord right.cat) _ j1
        exact ⟨k1, by rw [k2]; exact j4, k4⟩
  obtain ⟨hi, h1, h2⟩ := key
  refine ⟨?_, ?_⟩
  · intro v hv
    obtain ⟨w, hw⟩ := Option.isSome_iff_exists.1 (h1 v ((hord _ _).2 hv))
    exact ⟨w, hw, hi.left v w hw⟩
  · intro v hv
    obtain ⟨w, hw⟩ := Option.isSome_iff_exists.1 (h2 v ((hord _ _).2 hv))
    exact ⟨w, hw, hi.right v w hw⟩

theorem defined_sub {m : Nat → Option Nat} {d r a v l t} (h : Defined m (.slash d r a v l t)) : Defined m r ∧ Defined m a :=
  ⟨fun w hw => h w (by simp [BCat.vars, hw]), fun w hw => h w (by simp [BCat.vars, hw])⟩

theorem defined_var {m : Nat → Option Nat} {c : BCat} (h : Defined m c) (hv : c.var ≠ 0) : ∃ w, m c.var = some w ∧ w ≠ 0 := by
  apply h
  cases c with
  | atomic a f v r => simp only [BCat.var] at hv ⊢; simp [BCat.vars, hv]
  | slash d r a v l t => simp only [BCat.var] at hv ⊢; simp [BCat.vars, hv]

theorem translate_total {m : Nat → Option Nat} {f : Feature} {c : BCat} (hd : Defined m c) (hm : c.Marked) (hr : c.Real) :
    ∃ c', c.translate m f = .ok c' ∧ c'.Marked ∧ c'.Real := by
  induction c with
  | atomic a g v r =>
    obtain ⟨w, hw, hw0⟩ := defined_var hd hm
    simp only [BCat.var] at hw
    exact ⟨.atomic a (BCat.newFeature g f) w r, by simp only [BCat.translate, hw], hw0, hr⟩
  | slash d x y v l t ih1 ih2 =>
    obtain ⟨w, hw, hw0⟩ := defined_var hd hm.1
    simp only [BCat.var] at hw
    obtain ⟨d1, d2⟩ := defined_sub hd
    obtain ⟨x', hx, hx1, hx2⟩ := ih1 d1 hm.2.1 hr.1
    obtain ⟨y', hy, hy1, hy2⟩ := ih2 d2 hm.2.2 hr.2
    exact ⟨.slash d x' y' w l 0, by simp only [BCat.translate, hw, hx, hy], ⟨hw0, hx1, hy1⟩, hx2, hy2⟩

/-! ## Application and composition -/

/-- Not raising, and a good result that is not a coordination. -/
def Fine (r : Except PyErr (Option Tree)) : Prop := ∃ o, r = .ok o ∧ ∀ t, o = some t → t.Good

theorem fine_none : Fine (.ok none) := ⟨none, rfl, by simp⟩

theorem good_of {rule : Rule} {c : BCat} {m : Nat → Option Variable} (h : rule ≠ .conj) (hr : c.Real) (hm : c.Marked) : (Tree.mk rule c m).Good :=
  ⟨hr, fun _ => hm, fun h' => absurd h' h⟩

theorem fwd_marked {t : Tree} (h : t.Good) (hf : t.cat.fwd = true) : t.cat.Marked := by
  apply h.2.1
  intro he
  obtain ⟨x, hx, _⟩ := h.2.2 he
  rw [hx] at hf
  simp [BCat.fwd, BCat.dir] at hf

/-- The parts of a good backward category are marked even for a coordination. -/
theorem bwd_parts {t : Tree} (h : t.Good) {x y v l tt} (hc : t.cat = .slash '\\' x y v l tt) : x.Marked ∧ y.Marked := by
  by_cases he : t.rule = .conj
  · obtain ⟨z, hz, _, hm⟩ := h.2.2 he
    rw [hz] at hc
    simp only [BCat.slash.injEq] at hc
    obtain ⟨_, rfl, rfl, _⟩ := hc
    exact ⟨hm, hm⟩
  · have := h.2.1 he
    rw [hc] at this
    exact this.2

include hord in
theorem application_fine {left right : Tree} (fwd : Bool) (hl : left.Good) (hr : right.Good)
    (hd : if fwd then left.cat.fwd = true else right.cat.bwd = true) : Fine (application ord left right fwd) := by
  cases fwd with
  | true =>
    simp only [if_true] at hd
    obtain ⟨x, y, v, l, tt, hc⟩ := fwd_iff.1 hd
    simp only [application, if_true, hc]
    cases hu : unify ord left right true right.cat y with
    | none => exact fine_none
    | some st =>
      have hdef := (unify_defined ord hord hu).1
      have hm := fwd_marked hl hd
      have hreal := hl.1
      rw [hc] at hdef hm hreal
      obtain ⟨x', hx, hx1, hx2⟩ := translate_total (f := st.feature) (defined_sub hdef).1 hm.2.1 hreal.1
      have : x.translate (st.transRes true) st.feature = .ok x' := hx
      simp only [this]
      exact ⟨_, rfl, by rintro t ⟨⟩; exact good_of (by simp) hx2 hx1⟩
  | false =>
    simp only [Bool.false_eq_true, if_false] at hd
    obtain ⟨x, y, v, l, tt, hc⟩ := bwd_iff.1 hd
    simp only [application, Bool.false_eq_true, if_false, hc]
    cases hu : unify ord left right false left.cat y with
    | none => exact fine_none
    | some st =>
      have hdef := (unify_defined ord hord hu).2
      have hm := bwd_parts hr hc
      have hreal := hr.1
      rw [hc] at hdef hreal
      obtain ⟨x', hx, hx1, hx2⟩ := translate_total (f := st.feature) (defined_sub hdef).1 hm.1 hreal.1
      have : x.translate (st.transRes false) st.feature = .ok x' := hx
      simp only [this]
      exact ⟨_, rfl, by rintro t ⟨⟩; exact good_of (by simp) hx2 hx1⟩

theorem outer_ne {left : Tree} {st : UState} (hd : Defined st.transL left.cat) (hm : left.cat.Marked) : newOuterVar left st ≠ 0 := by
  have hv : left.cat.var ≠ 0 := by cases h : left.cat <;> rw [h] at hm <;> simp [BCat.Marked] at hm <;> simp [BCat.var, hm]
  obtain ⟨w, hw, hw0⟩ := defined_var hd hv
  simp [newOuterVar, hw, hw0]

/-- Marked categories, both complex, the composed argument with enough slashes. -/
theorem gc2_fine {left right : Tree} {comp : Comp} (hcomp : comp ≠ .bc)
    (hl : left.cat.Marked ∧ left.cat.Real) (hr : right.cat.Marked ∧ right.cat.Real)
    (hord : ∀ c v, v ∈ ord c ↔ v ∈ c.vars) :
    (∃ o, gc2 ord left right comp = .ok o ∧ ∀ t, o = some t → t.Good) ∨ gc2 ord left right comp = .error .attributeError := by
  unfold gc2
  simp only
  split
  · rename_i d x y v l tt d2 d1 y' z1 v1 r1 t1 z2 v2 r2 t2 hres harg
    left
    cases hu : unify ord left right (decide (comp = .fc)) y' y with
    | none => exact fine_none
    | some st =>
      obtain ⟨dl, dr⟩ := unify_defined ord hord hu
      have hR : Defined (st.transRes (decide (comp = .fc))) (.slash d x y v l tt) ∧ (BCat.slash d x y v l tt).Marked ∧ (BCat.slash d x y v l tt).Real := by
        rw [← hres]
        by_cases hc : comp = .fc
        · simp only [hc, decide_true, if_true, UState.transRes]; exact ⟨dl, hl⟩
        · simp only [hc, decide_false, Bool.false_eq_true, if_false, UState.transRes]; exact ⟨dr, hr⟩
      have hA : Defined (st.transArg (decide (comp = .fc))) (.slash d2 (.slash d1 y' z1 v1 r1 t1) z2 v2 r2 t2) ∧
          (BCat.slash d2 (.slash d1 y' z1 v1 r1 t1) z2 v2 r2 t2).Marked ∧ (BCat.slash d2 (.slash d1 y' z1 v1 r1 t1) z2 v2 r2 t2).Real := by
        rw [← harg]
        by_cases hc : comp = .fc
        · simp only [hc, decide_true, if_true, UState.transArg]; exact ⟨dr, hr⟩
        · simp only [hc, decide_false, Bool.false_eq_true, if_false, UState.transArg]; exact ⟨dl, hl⟩
      obtain ⟨R1, R2, R3⟩ := hR
      obtain ⟨A1, A2, A3⟩ := hA
      obtain ⟨D1, D2⟩ := defined_sub A1
      obtain ⟨x', hx, hx1, hx2⟩ := translate_total (f := st.feature) (defined_sub R1).1 R2.2.1 R3.1
      obtain ⟨z1', hz1, hz11, hz12⟩ := translate_total (f := st.feature) (defined_sub D1).2 A2.2.1.2.2 A3.1.2
      obtain ⟨z2', hz2, hz21, hz22⟩ := translate_total (f := st.feature) D2 A2.2.2 A3.2
      obtain ⟨w, hw, hw0⟩ := defined_var D1 A2.2.1.1
      simp only [BCat.var] at hw
      simp only [hx, hz1, hz2, hw]
      refine ⟨_, rfl, ?_⟩
      rintro t ⟨⟩
      refine good_of (by split <;> simp) ?_ ?_
      · exact ⟨⟨hx2, hz12⟩, hz22⟩
      · exact ⟨outer_ne dl hl.1, ⟨hw0, hx1, hz11⟩, hz21⟩
  · right; rfl

theorem gc3_fine {left right : Tree} {comp : Comp} (hcomp : comp ≠ .bc)
    (hl : left.cat.Marked ∧ left.cat.Real) (hr : right.cat.Marked ∧ right.cat.Real)
    (hord : ∀ c v, v ∈ ord c ↔ v ∈ c.vars) :
    (∃ o, gc3 ord left right comp = .ok o ∧ ∀ t, o = some t → t.Good) ∨ gc3 ord left right comp = .error .attributeError := by
  unfold gc3
  simp only
  split
  · rename_i d x y v l tt d3 d2 d1 y' z1 v1 r1 t1 z2 v2 r2 t2 z3 v3 r3 t3 hres harg
    left
    cases hu : unify ord left right (decide (comp = .fc)) y' y with
    | none => exact fine_none
    | some st =>
      obtain ⟨dl, dr⟩ := unify_defined ord hord hu
      have hR : Defined (st.transRes (decide (comp = .fc))) (.slash d x y v l tt) ∧ (BCat.slash d x y v l tt).Marked ∧ (BCat.slash d x y v l tt).Real := by
        rw [← hres]
        by_cases hc : comp = .fc
        · simp only [hc, decide_true, if_true, UState.transRes]; exact ⟨dl, hl⟩
        · simp only [hc, decide_false, Bool.false_eq_true, if_false, UState.transRes]; exact ⟨dr, hr⟩
      have hA : Defined (st.transArg (decide (comp = .fc))) (.slash d3 (.slash d2 (.slash d1 y' z1 v1 r1 t1) z2 v2 r2 t2) z3 v3 r3 t3) ∧
          (BCat.slash d3 (.slash d2 (.slash d1 y' z1 v1 r1 t1) z2 v2 r2 t2) z3 v3 r3 t3).Marked ∧
          (BCat.slash d3 (.slash d2 (.slash d1 y' z1 v1 r1 t1) z2 v2 r2 t2) z3 v3 r3 t3).Real := by
        rw [← harg]
        by_cases hc : comp = .fc
        · simp only [hc, decide_true, if_true, UState.transArg]; exact ⟨dr, hr⟩
        · simp only [hc, decide_false, Bool.false_eq_true, if_false, UState.transArg]; exact ⟨dl, hl⟩
      obtain ⟨R1, R2, R3⟩ := hR
      obtain ⟨A1, A2, A3⟩ := hA
      obtain ⟨D1, D2⟩ := defined_sub A1
      obtain ⟨E1, E2⟩ := defined_sub D1
      obtain ⟨x', hx, hx1, hx2⟩ := translate_total (f := st.feature) (defined_sub R1).1 R2.2.1 R3.1
      obtain ⟨z1', hz1, hz11, hz12⟩ := translate_total (f := st.feature) (defined_sub E1).2 A2.2.1.2.1.2.2 A3.1.1.2
      obtain ⟨z2', hz2, hz21, hz22⟩ := translate_total (f := st.feature) E2 A2.2.1.2.2 A3.1.2
      obtain ⟨z3', hz3, hz31, hz32⟩ := translate_total (f := st.feature) D2 A2.2.2 A3.2
      obtain ⟨w, hw, hw0⟩ := defined_var E1 A2.2.1.2.1.1
      obtain ⟨w2, hw2, hw20⟩ := defined_var D1 A2.2.1.1
      simp only [BCat.var] at hw hw2
      simp only [hx, hz1, hz2, hz3, hw, hw2]
      refine ⟨_, rfl, ?_⟩
      rintro t ⟨⟩
      refine good_of (by split <;> simp) ?_ ?_
      · exact ⟨⟨⟨hx2, hz12⟩, hz22⟩, hz32⟩
      · exact ⟨outer_ne dl hl.1, ⟨hw20, ⟨hw0, hx1, hz11⟩, hz21⟩, hz31⟩
  · right; rfl

theorem catchAttr_fine {r : Except PyErr (Option Tree)} (h : Fine r ∨ r = .error .attributeError) : Fine (catchAttr r) := by
  rcases h with ⟨o, rfl, ho⟩ | rfl
  · exact ⟨o, rfl, ho⟩
  · exact fine_none

theorem generalisedComposition_fine {left right : Tree} {comp : Comp} (hcomp : comp ≠ .bc)
    (hl : left.cat.Marked ∧ left.cat.Real) (hr : right.cat.Marked ∧ right.cat.Real)
    (hord : ∀ c v, v ∈ ord c ↔ v ∈ c.vars) : Fine (generalisedComposition ord left right comp) := by
  unfold generalisedComposition
  simp only
  split
  · exact fine_none
  · split
    · exact fine_none
    · exact fine_none
    · apply catchAttr_fine
      unfold generalised
      rcases gc2_fine ord hcomp hl hr hord with ⟨o, ho, hg⟩ | he
      · rw [ho]
        cases o with
        | some t => exact .inl ⟨_, rfl, hg⟩
        | none =>
          simp only
          split
          · split
            · split
              · exact gc3_fine ord hcomp hl hr hord
              · exact .inl fine_none
            · exact .inr rfl
          · exact .inr rfl
      · rw [he]; exact .inr rfl

theorem gbc_fine {left right : Tree} (hl : left.Good) (hc : left.rule ≠ .conj) (h1 : left.cat.bwd = true) (h2 : right.cat.bwd = true) :
    Fine (generalisedBackwardComposition ord left right) := by
  obtain ⟨r, w, v2, l2, tt2, hcl⟩ := bwd_iff.1 h1
  obtain ⟨x, y, v, l, tt, hcr⟩ := bwd_iff.1 h2
  simp only [generalisedBackwardComposition, hcl, hcr]
  split
  · rename_i hm
    cases r with
    | atomic => simp [sDclSDcl, BCat.doesMatch] at hm
    | slash d rr z v1 l1 t1 =>
      simp only
      split
      · exact fine_none
      · split
        · split
          · exact fine_none
          · refine ⟨_, rfl, ?_⟩
            rintro t ⟨⟩
            rw [← hcl]
            exact good_of (by simp) hl.1 (hl.2.1 hc)
        · exact fine_none
  · exact fine_none

theorem composition_fine {left right : Tree} {comp : Comp} (hord : ∀ c v, v ∈ ord c ↔ v ∈ c.vars)
    (gl : left.Good) (hl : left.cat.Marked ∧ left.cat.Real) (hr : right.cat.Marked ∧ right.cat.Real)
    (hnc : left.rule ≠ .conj)
    (hd : match comp with
      | .fc => left.cat.fwd = true ∧ right.cat.fwd = true
      | .bc => left.cat.bwd = true ∧ right.cat.bwd = true
      | .bx => left.cat.fwd = true ∧ right.cat.bwd = true) : Fine (composition ord left right comp) := by
  have hcl : ∃ d x y v l t, left.cat = .slash d x y v l t := by
    cases h : left.cat with
    | atomic => cases comp <;> simp [h, BCat.fwd, BCat.bwd, BCat.dir] at hd
    | slash d x y v l t => exact ⟨_, _, _, _, _, _, rfl⟩
  have hcr : ∃ d x y v l t, right.cat = .slash d x y v l t := by
    cases h : right.cat with
    | atomic => cases comp <;> simp [h, BCat.fwd, BCat.bwd, BCat.dir] at hd
    | slash d x y v l t => exact ⟨_, _, _, _, _, _, rfl⟩
  unfold composition
  simp only
  split
  · rename_i d x y v l tt d2 y' z v2 l2 t2 hres harg
    cases hu : unify ord left right (decide (comp = .fc)) y' y with
    | none =>
      simp only
      cases comp with
      | fc => exact generalisedComposition_fine ord (by simp) hl hr hord
      | bx => exact generalisedComposition_fine ord (by simp) hl hr hord
      | bc => exact gbc_fine ord gl hnc hd.1 hd.2
    | some st =>
      obtain ⟨dl, dr⟩ := unify_defined ord hord hu
      have hR : Defined (st.transRes (decide (comp = .fc))) (.slash d x y v l tt) ∧ (BCat.slash d x y v l tt).Marked ∧ (BCat.slash d x y v l tt).Real := by
        rw [← hres]
        by_cases hc : comp = .fc
        · simp only [hc, decide_true, if_true, UState.transRes]; exact ⟨dl, hl⟩
        · simp only [hc, decide_false, Bool.false_eq_true, if_false, UState.transRes]; exact ⟨dr, hr⟩
      have hA : Defined (st.transArg (decide (comp = .fc))) (.slash d2 y' z v2 l2 t2) ∧ (BCat.slash d2 y' z v2 l2 t2).Marked ∧
          (BCat.slash d2 y' z v2 l2 t2).Real := by
        rw [← harg]
        by_cases hc : comp = .fc
        · simp only [hc, decide_true, if_true, UState.transArg]; exact ⟨dr, hr⟩
        · simp only [hc, decide_false, Bool.false_eq_true, if_false, UState.transArg]; exact ⟨dl, hl⟩
      obtain ⟨R1, R2, R3⟩ := hR
      obtain ⟨A1, A2, A3⟩ := hA
      obtain ⟨x', hx, hx1, hx2⟩ := translate_total (f := st.feature) (defined_sub R1).1 R2.2.1 R3.1
      obtain ⟨z', hz, hz1, hz2⟩ := translate_total (f := st.feature) (defined_sub A1).2 A2.2.2 A3.2
      simp only [hx, hz]
      refine ⟨_, rfl, ?_⟩
      rintro t ⟨⟩
      refine good_of (by cases comp <;> simp [compositionRule]) ?_ ?_
      · exact ⟨hx2, hz2⟩
      · exact ⟨outer_ne dl hl.1, hx1, hz1⟩
  · rename_i hno
    obtain ⟨d, x, y, v, l, t, hcl⟩ := hcl
    obtain ⟨d', x', y', v', l', t', hcr⟩ := hcr
    exfalso
    by_cases hc : comp = .fc
    · simp only [hc, decide_true, if_true] at hno
      exact hno _ _ _ _ _ _ _ _ _ _ _ _ hcl hcr
    · simp only [hc, decide_false, Bool.false_eq_true, if_false] at hno
      exact hno _ _ _ _ _ _ _ _ _ _ _ _ hcr hcl

/-! ## All rules -/

variable (hA : Atom → Feature → Int) (hC : Int → Int → Char → Int) (g : GrammarRules)

theorem orElse_fine {f f' : Except PyErr (Option Tree)} (h : Fine f) (h' : Fine f') : Fine (orElse f f') := by
  obtain ⟨o, rfl, ho⟩ := h
  unfold orElse
  cases o with
  | none => exact h'
  | some t => exact ⟨_, rfl, ho⟩

/-- Not raising, and good results. -/
def FineList (r : Except PyErr (List Tree)) : Prop := ∃ ts, r = .ok ts ∧ ∀ t ∈ ts, t.Good

theorem asList_fine {r : Except PyErr (Option Tree)} (h : Fine r) : FineList (asList r) := by
  obtain ⟨o, rfl, ho⟩ := h
  refine ⟨o.toList, rfl, ?_⟩
  intro t ht
  simp only [Option.mem_toList, Option.mem_def] at ht
  exact ho t ht

theorem not_coord {t : Tree} (h : t.coordinated = false) : t.rule ≠ .conj := by simpa [Tree.coordinated] using h

theorem not_coord' {t : Tree} (h : t.coordinatedOrTypeRaised = false) : t.rule ≠ .conj := by
  simp [Tree.coordinatedOrTypeRaised] at h
  exact h.1.1

theorem fwd_not_coord {t : Tree} (h : t.Good) (hf : t.cat.fwd = true) : t.rule ≠ .conj := by
  intro he
  obtain ⟨x, hx, _⟩ := h.2.2 he
  rw [hx] at hf
  simp [BCat.fwd, BCat.dir] at hf

theorem coordinate_fine {left right : Tree} (hr : right.Good) (hn : right.coordinatedOrTypeRaised = false) (hh : left.HasHead) :
    ∃ t, coordinate left right = .ok t ∧ t.Good := by
  obtain ⟨v, hv, hf⟩ := hh
  have hc : coordinationCheck left right = .ok () := by
    unfold coordinationCheck
    split
    · rfl
    · split
      · rw [hv]; simp [hf]
      · rfl
  refine ⟨⟨.conj, .slash '\\' right.cat right.cat 0 none 0, fun k => (right.varMap k).map (fun v => v.asFilled false)⟩,
    by simp only [coordinate, hc], ⟨hr.1, hr.1⟩, fun h => absurd rfl h, fun _ => ⟨right.cat, rfl, hr.1, hr.2.1 (not_coord' hn)⟩⟩

theorem matchRule_mem {T : Type} {rules : List (BCat × List T)} {c : BCat} {x : T} (h : x ∈ matchRule hA hC rules c) :
    ∃ r ∈ rules, x ∈ r.2 := by
  unfold matchRule at h
  split at h
  · rename_i r hr; exact ⟨r, List.mem_of_find?_eq_some hr, h⟩
  · split at h
    · rename_i r hr; exact ⟨r, List.mem_of_find?_eq_some hr, h⟩
    · simp at h

/-- **C62.** For every grammar whose rules give marked categories, and any two good trees (the left one with a head word, if it is a
conjunction or a comma or semicolon): `combine` does not raise, and its results are good again. So nothing built from marked lexical
categories by `combine`, `type_change` and `type_raise` ever makes `combine` raise a KeyError (or an AttributeError from a category). -/
theorem C62_combine (hord : ∀ c v, v ∈ ord c ↔ v ∈ c.vars) (hg : g.Good) (left right : Tree) (hl : left.Good) (hr : right.Good)
    (hh : left.cat.atom = .conj ∨ left.cat.atom = .comma ∨ left.cat.atom = .semicolon → left.HasHead) :
    ∃ ts, combine ord hA hC g left right = .ok ts ∧ ∀ t ∈ ts, t.Good := by
  have ba : Fine (backwardApplication ord g left right) := by
    unfold backwardApplication
    split
    · rename_i h
      simp only [Bool.and_eq_true] at h
      exact application_fine ord hord false hl hr (by simpa using h.1.1)
    · exact fine_none
  have fa : Fine (forwardApplication ord g left right) := by
    unfold forwardApplication
    split
    · rename_i h
      simp only [Bool.and_eq_true] at h
      exact application_fine ord hord true hl hr (by simpa using h.1.1)
    · exact fine_none
  have fc : Fine (forwardComposition ord g left right) := by
    unfold forwardComposition
    split
    · rename_i h
      simp only [Bool.and_eq_true] at h
      exact composition_fine ord hord hl ⟨fwd_marked hl h.1.1, hl.1⟩ ⟨fwd_marked hr h.1.2, hr.1⟩ (fwd_not_coord hl h.1.1) h.1
    · exact fine_none
  have bc : Fine (backwardComposition ord g left right) := by
    unfold backwardComposition
    split
    · rename_i h
      simp only [Bool.and_eq_true, Bool.not_eq_true'] at h
      have n1 := not_coord h.1.1.2
      have n2 := not_coord h.1.2
      exact composition_fine ord hord hl ⟨hl.2.1 n1, hl.1⟩ ⟨hr.2.1 n2, hr.1⟩ n1 h.1.1.1
    · exact fine_none
  have bx : Fine (backwardCrossComposition ord left right) := by
    unfold backwardCrossComposition
    split
    · rename_i h
      simp only [Bool.and_eq_true, Bool.not_eq_true'] at h
      have n2 := not_coord h.1.2
      exact composition_fine ord hord hl ⟨fwd_marked hl h.1.1.1, hl.1⟩ ⟨hr.2.1 n2, hr.1⟩ (fwd_not_coord hl h.1.1.1) h.1.1
    · exact fine_none
  have co : Fine (coordination left right) := by
    unfold coordination
    split
    · rename_i h
      obtain ⟨t, ht, hgood⟩ := coordinate_fine hr h.2 (hh (.inl h.1))
      rw [ht]
      exact ⟨_, rfl, by rintro t ⟨⟩; exact hgood⟩
    · exact fine_none
  have lp : FineList (leftPunct hA hC g left right) := by
    have hchange : ∀ t, t ∈ (match lookupCat hA hC g.leftPunct left.cat with
        | none => []
        | some rules => typeChangeCat hA hC .lp right.cat left (some right) rules) → t.Good := by
      intro t ht
      split at ht
      · simp at ht
      · rename_i rules hrules
        obtain ⟨r, hrm, _, rfl⟩ := lookupCat_some hA hC hrules
        unfold typeChangeCat at ht
        obtain ⟨c, hc, rfl⟩ := List.mem_map.1 ht
        obtain ⟨q, hq, hcq⟩ := matchRule_mem hA hC hc
        obtain ⟨h1, h2⟩ := hg.2.2.1 r hrm q hq c hcq
        exact good_of (by simp) h1 h2
    have hpass : ∀ t, t ∈ (if right.coordinatedOrTypeRaised then [] else [passThrough .lp right]) → t.Good := by
      intro t ht
      split at ht
      · simp at ht
      · rename_i hn
        simp only [List.mem_singleton] at ht
        subst ht
        exact good_of (by simp) hr.1 (hr.2.1 (not_coord' (by simpa using hn)))
    unfold leftPunct
    simp only
    split
    · rename_i hc
      obtain ⟨t, ht, hgood⟩ := coordinate_fine hr hc.2.1 (hh (.inr hc.1))
      rw [ht]
      refine ⟨_, rfl, ?_⟩
      intro u hu
      rcases List.mem_append.1 hu with hu | hu
      · exact hpass u hu
      · rcases List.mem_cons.1 hu with rfl | hu
        · exact hgood
        · exact hchange u hu
    · refine ⟨_, rfl, ?_⟩
      intro u hu
      rcases List.mem_append.1 hu with hu | hu
      · exact hpass u hu
      · exact hchange u hu
  have rp : ∀ t ∈ rightPunct hA hC g left right, t.Good := by
    intro t ht
    unfold rightPunct at ht
    rcases List.mem_append.1 ht with ht | ht
    · split at ht
      · simp at ht
      · rename_i hn
        simp only [List.mem_singleton] at ht
        subst ht
        exact good_of (by simp) hl.1 (hl.2.1 (not_coord' (by simpa using hn)))
    · split at ht
      · simp at ht
      · split at ht
        · simp at ht
        · rename_i rules hrules
          obtain ⟨r, hrm, _, rfl⟩ := lookupCat_some hA hC hrules
          unfold typeChangeCat at ht
          obtain ⟨c, hc, rfl⟩ := List.mem_map.1 ht
          obtain ⟨q, hq, hcq⟩ := matchRule_mem hA hC hc
          obtain ⟨h1, h2⟩ := hg.2.2.2 r hrm q hq c hcq
          exact good_of (by simp) h1 h2
  have nil : FineList (.ok []) := ⟨[], rfl, by simp⟩
  show FineList _
  unfold combine
  split
  · generalize CatKind.of left.cat = k1
    generalize CatKind.of right.cat = k2
    cases k1 <;> cases k2 <;> simp only [combineKinds, CatKind.isStandard, if_true, if_false, Bool.false_eq_true]
    case atom.backward => exact asList_fine ba
    case forward.atom => exact asList_fine fa
    case forward.conj => exact asList_fine fa
    case forward.forward => exact asList_fine (orElse_fine fa fc)
    case forward.backward => exact asList_fine (orElse_fine ba (orElse_fine fa bx))
    case backward.backward => exact asList_fine (orElse_fine ba bc)
    case conj.atom =>
      obtain ⟨o, ho, hog⟩ := co
      rw [ho]
      refine ⟨_, rfl, ?_⟩
      intro t ht
      rcases List.mem_append.1 ht with ht | ht
      · simp only [Option.mem_toList, Option.mem_def] at ht
        exact hog t ht
      · simp only [Option.mem_toList, Option.mem_def, adjectivalConj] at ht
        split at ht
        · rename_i hc
          cases ht
          refine good_of (by simp) hr.1 (hr.2.1 ?_)
          intro he
          obtain ⟨x, hx, _⟩ := hr.2.2 he
          rw [hx] at hc
          simp [BCat.atom] at hc
        · cases ht
    case conj.backward => exact asList_fine (orElse_fine ba co)
    case conj.forward => exact asList_fine (orElse_fine ba co)
    case punct.atom => exact lp
    case punct.backward => exact lp
    case punct.forward => exact lp
    case atom.punct => exact ⟨_, rfl, rp⟩
    case backward.punct => exact ⟨_, rfl, rp⟩
    case forward.punct => exact ⟨_, rfl, rp⟩
    all_goals exact nil
  · exact nil

/-- **C62.** Type changing and type raising keep trees good, and lexical trees with marked categories are good and have a head word. -/
theorem C62_unary (hg : g.Good) (ts : List Tree) (hts : ∀ t ∈ ts, t.Good) :
    (∀ t ∈ typeChange hA hC g ts, t.Good) ∧ (∀ t ∈ typeRaise hA hC g ts, t.Good) ∧
    ∀ (c : BCat) (w : Nat), c.Real → c.Marked → (lexical c w).Good ∧ (lexical c w).HasHead := by
  refine ⟨?_, ?_, ?_⟩
  · intro t ht
    obtain ⟨u, hu, ht⟩ := List.mem_flatMap.1 ht
    obtain ⟨c, hc, rfl⟩ := List.mem_map.1 ht
    obtain ⟨q, hq, hcq⟩ := matchRule_mem hA hC hc
    obtain ⟨h1, h2⟩ := hg.2.1 q hq c hcq
    exact good_of (by simp) h1 h2
  · intro t ht
    obtain ⟨u, hu, ht⟩ := List.mem_flatMap.1 ht
    obtain ⟨c, hc, rfl⟩ := List.mem_map.1 ht
    obtain ⟨q, hq, hcq⟩ := matchRule_mem hA hC hc
    obtain ⟨h1, h2⟩ := hg.1 q hq c hcq
    exact good_of (by split <;> simp) h1 h2
  · intro c w h1 h2
    exact ⟨good_of (by simp) h1 h2, ⟨[w], true⟩, by simp [Tree.headVar, lexical, put], by simp⟩

/-- The condition on the order of the variables is met. -/
example : ∀ c v, v ∈ demoOrd c ↔ v ∈ c.vars := by
  intro c v; simp [demoOrd]

/-- `and := conj`, `Mary := NP` and a grammar with a type raising rule meet the conditions. -/
example :
    let g : GrammarRules := ⟨true, [(.atomic .conj .none 1 none, demoNP 1)],
      [(demoNP 1, [.slash '/' (demoS .x 2) (.slash '\\' (demoS .x 2) (demoNP 1) 2 none 0) 2 none 0])], [], [], []⟩
    g.Good ∧ (lexical (.atomic .conj .none 1 none) 1).Good ∧ (lexical (demoNP 1) 2).Good ∧ (lexical (.atomic .conj .none 1 none) 1).HasHead ∧
    (combine demoOrd (fun _ _ => 0) (fun _ _ _ => 0) g (lexical (.atomic .conj .none 1 none) 1) (lexical (demoNP 1) 2)).toOption.map
      (List.map (fun t => (t.rule, t.cat.exact))) = some [(.conj, .slash '\\' (.atomic .np .none) (.atomic .np .none))] := by
  refine ⟨?_, ?_, ?_, ?_, by decide +kernel⟩
  · simp [GrammarRules.Good, demoS, demoNP, BCat.Real, BCat.Marked]
  · exact good_of (by simp) (by simp [BCat.Real]) (by simp [BCat.Marked])
  · exact good_of (by simp) (by simp [BCat.Real, demoNP]) (by simp [BCat.Marked, demoNP])
  · exact ⟨⟨[1], true⟩, by simp [Tree.headVar, lexical, put], by simp⟩

/-- With an unmarked category in the result, application raises: `(S\NP)/NP` without variables on `NP`. -/
theorem C62_refuted_unmarked : ∃ left right : Tree, left.cat.Real ∧ right.cat.Real ∧ application demoOrd left right true = .error .keyError :=
  ⟨lexical (.slash '/' (.slash '\\' (demoS .none 1) (demoNP 0) 1 none 0) (demoNP 3) 1 none 0) 1, lexical (demoNP 1) 2,
    by simp [lexical, BCat.Real, demoS, demoNP], by simp [lexical, BCat.Real, demoS, demoNP], by rfl⟩

end Bobcat
end Lambeq
