import Verif.Bobcat.RulesTotal

/-!
# C62: head words are neither lost nor invented by a combination
-/

namespace Lambeq
namespace Bobcat
set_option linter.unusedSimpArgs false
set_option linter.unusedVariables false
set_option linter.unusedSectionVars false

/-! ## Specification -/

/-- The head words that fill a variable of the category of `left` fill some variable of the result; the same for `right`; and the head
words of the result are head words of `left` or `right`. -/
def KeepsHeads (left right t : Tree) : Prop :=
  (∀ v ∈ left.cat.vars, ∀ x, left.varMap v = some x → ∃ w y, t.varMap w = some y ∧ ∀ f ∈ x.fillers, f ∈ y.fillers) ∧
  (∀ v ∈ right.cat.vars, ∀ x, right.varMap v = some x → ∃ w y, t.varMap w = some y ∧ ∀ f ∈ x.fillers, f ∈ y.fillers) ∧
  (∀ w y, t.varMap w = some y → ∀ f ∈ y.fillers,
    (∃ v x, left.varMap v = some x ∧ f ∈ x.fillers) ∨ (∃ v x, right.varMap v = some x ∧ f ∈ x.fillers))

/-! ## The maps of the unification are inverse to each other -/

structure Tracks (st : UState) : Prop where
  num : 1 ≤ st.num
  left : ∀ v w, st.transL v = some w → st.oldL w = some v ∧ 1 ≤ w ∧ w < st.num
  right : ∀ v w, st.transR v = some w → st.oldR w = some v ∧ 1 ≤ w ∧ w < st.num

theorem Tracks.putL {st : UState} (h : Tracks st) {v : Nat} :
    ∀ u w, put st.transL v st.num u = some w → put st.oldL st.num v w = some u ∧ 1 ≤ w ∧ w < st.num + 1 := by
  intro u w hw
  rcases put_some hw with ⟨rfl, rfl⟩ | hw
  · exact ⟨by simp [put], h.num, by omega⟩
  · obtain ⟨h1, h2, h3⟩ := h.left u w hw
    exact ⟨by rw [put, if_neg (by omega)]; exact h1, h2, by omega⟩

theorem Tracks.putR {st : UState} (h : Tracks st) {v : Nat} :
    ∀ u w, put st.transR v st.num u = some w → put st.oldR st.num v w = some u ∧ 1 ≤ w ∧ w < st.num + 1 := by
  intro u w hw
  rcases put_some hw with ⟨rfl, rfl⟩ | hw
  · exact ⟨by simp [put], h.num, by omega⟩
  · obtain ⟨h1, h2, h3⟩ := h.right u w hw
    exact ⟨by rw [put, if_neg (by omega)]; exact h1, h2, by omega⟩

theorem Tracks.bind {lm rm : Nat → Option Variable} {lv rv : Nat} {st st' : UState} (h : Tracks st) (hb : bindVars lm rm lv rv st = some st') :
    Tracks st' := by
  unfold bindVars at hb
  split at hb
  · split at hb
    · cases hb
    · cases hb
      exact ⟨by simp, h.putL, h.putR⟩
  · cases hb; exact h

theorem Tracks.feature {st : UState} (h : Tracks st) (f : Feature) : Tracks { st with feature := f } := ⟨h.num, h.left, h.right⟩

theorem Tracks.atoms {a : Atom} {f : Feature} {a' : Atom} {f' : Feature} {st st' : UState} (h : Tracks st)
    (hu : unifyAtoms a f a' f' st = some st') : Tracks st' := by
  unfold unifyAtoms at hu
  split at hu
  · cases hu
  · split at hu
    · split at hu
      · cases hu; exact h.feature _
      · split at hu
        · cases hu; exact h.feature _
        · split at hu
          · cases hu
          · cases hu; exact h
    · cases hu; exact h

theorem Tracks.recurse {lm rm : Nat → Option Variable} {l r : BCat} {st st' : UState} (h : Tracks st) (hu : unifyRec lm rm l r st = some st') :
    Tracks st' := by
  induction l generalizing r st st' with
  | atomic a f v rr =>
    simp only [unifyRec] at hu
    split at hu
    · cases hu
    · rename_i st1 h1
      exact (h.atoms h1).bind hu
  | slash d x y v l t ih1 ih2 =>
    cases r with
    | atomic => simp [unifyRec] at hu
    | slash d' x' y' v' l' t' =>
      simp only [unifyRec] at hu
      split at hu
      · cases hu
      · split at hu
        · cases hu
        · rename_i st1 h1
          split at hu
          · cases hu
          · rename_i st2 h2
            exact (ih2 (ih1 h h1) h2).bind hu

theorem Tracks.addL {st : UState} (h : Tracks st) (vs : List Nat) : Tracks (addVarsL vs st) := by
  induction vs generalizing st with
  | nil => exact h
  | cons a vs ih =>
    simp only [addVarsL, List.foldl_cons] at ih ⊢
    split
    · exact ih ⟨by simp, h.putL, fun u w hw => by obtain ⟨h1, h2, h3⟩ := h.right u w hw; exact ⟨h1, h2, by simp only; omega⟩⟩
    · exact ih h

theorem Tracks.addR {st : UState} (h : Tracks st) (vs : List Nat) : Tracks (addVarsR vs st) := by
  induction vs generalizing st with
  | nil => exact h
  | cons a vs ih =>
    simp only [addVarsR, List.foldl_cons] at ih ⊢
    split
    · exact ih ⟨by simp, fun u w hw => by obtain ⟨h1, h2, h3⟩ := h.left u w hw; exact ⟨h1, h2, by simp only; omega⟩, h.putR⟩
    · exact ih h

variable (ord : BCat → List Nat)

theorem unify_tracks {left right : Tree} {fwd : Bool} {arg res : BCat} {st : UState} (h : unify ord left right fwd arg res = some st) :
    Tracks st := by
  have h0 : Tracks UState.init := ⟨by simp [UState.init], by simp [UState.init], by simp [UState.init]⟩
  unfold unify at h
  split at h
  · split at h
    · cases h
    · rename_i st1 hu
      cases h; exact ((h0.recurse hu).addR _).addL _
  · split at h
    · cases h
    · rename_i st1 hu
      cases h; exact ((h0.recurse hu).addL _).addR _

theorem binary_keeps (hord : ∀ c v, v ∈ ord c ↔ v ∈ c.vars) {left right : Tree} {fwd : Bool} {arg res : BCat} {st : UState}
    (h : unify ord left right fwd arg res = some st) (rule : Rule) (cat : BCat) : KeepsHeads left right (binaryCombinator rule cat left right st) := by
  have ht := unify_tracks ord h
  obtain ⟨hL, hR⟩ := unify_defined ord hord h
  refine ⟨?_, ?_, ?_⟩
  · intro v hv x hx
    obtain ⟨w, hw, _⟩ := hL v hv
    obtain ⟨h1, h2, h3⟩ := ht.left v w hw
    cases hr : (st.oldR w).bind right.varMap with
    | none => exact ⟨w, x.asFilled true, by simp [binaryCombinator, combinedVars, h1, h2, h3, hx, hr], fun f hf => hf⟩
    | some y => exact ⟨w, x.add y, by simp [binaryCombinator, combinedVars, h1, h2, h3, hx, hr], fun f hf => by simp [Variable.add, hf]⟩
  · intro v hv x hx
    obtain ⟨w, hw, _⟩ := hR v hv
    obtain ⟨h1, h2, h3⟩ := ht.right v w hw
    cases hl : (st.oldL w).bind left.varMap with
    | none => exact ⟨w, x.asFilled true, by simp [binaryCombinator, combinedVars, h1, h2, h3, hx, hl], fun f hf => hf⟩
    | some y => exact ⟨w, y.add x, by simp [binaryCombinator, combinedVars, h1, h2, h3, hx, hl], fun f hf => by simp [Variable.add, hf]⟩
  · intro w y hy f hf
    simp only [binaryCombinator, combinedVars] at hy
    split at hy
    · split at hy
      · rename_i l r hl hr
        cases hy
        obtain ⟨v, _, hv⟩ := Option.bind_eq_some_iff.1 hl
        obtain ⟨v', _, hv'⟩ := Option.bind_eq_some_iff.1 hr
        simp only [Variable.add, List.mem_append] at hf
        rcases hf with hf | hf
        · exact .inl ⟨v, l, hv, hf⟩
        · exact .inr ⟨v', r, hv', hf⟩
      · rename_i l hl hr
        cases hy
        obtain ⟨v, _, hv⟩ := Option.bind_eq_some_iff.1 hl
        exact .inl ⟨v, l, hv, hf⟩
      · rename_i r hl hr
        cases hy
        obtain ⟨v, _, hv⟩ := Option.bind_eq_some_iff.1 hr
        exact .inr ⟨v, r, hv, hf⟩
      · cases hy
    · cases hy

/-- **C62 (heads).** For any two trees: whenever application or (generalised) composition gives a tree, no head word is lost or invented. -/
theorem C62_heads (hord : ∀ c v, v ∈ ord c ↔ v ∈ c.vars) (left right t : Tree) :
    (∀ fwd, application ord left right fwd = .ok (some t) → KeepsHeads left right t) ∧
    (∀ comp, composition ord left right comp = .ok (some t) → KeepsHeads left right t) := by
  have g2 : ∀ comp t, gc2 ord left right comp = .ok (some t) → KeepsHeads left right t := by
    intro comp t h
    unfold gc2 at h
    simp only at h
    split at h
    · split at h
      · cases h
      · rename_i st hu
        split at h
        · cases h; exact binary_keeps ord hord hu _ _
        · cases h
    · cases h
  have g3 : ∀ comp t, gc3 ord left right comp = .ok (some t) → KeepsHeads left right t := by
    intro comp t h
    unfold gc3 at h
    simp only at h
    split at h
    · split at h
      · cases h
      · rename_i st hu
        split at h
        · cases h; exact binary_keeps ord hord hu _ _
        · cases h
    · cases h
  have gen : ∀ comp c t, generalised ord left right comp c = .ok (some t) → KeepsHeads left right t := by
    intro comp c t h
    unfold generalised at h
    split at h
    · cases h
    · rename_i t' h2; cases h; exact g2 _ _ h2
    · split at h
      · split at h
        · split at h
          · exact g3 _ _ h
          · cases h
        · cases h
      · cases h
  have gc : ∀ comp t, generalisedComposition ord left right comp = .ok (some t) → KeepsHeads left right t := by
    intro comp t h
    unfold generalisedComposition at h
    simp only at h
    split at h
    · cases h
    · split at h
      · cases h
      · cases h
      · exact gen _ _ _ (catchAttr_some h)
  refine ⟨?_, ?_⟩
  · intro fwd h
    unfold application at h
    simp only at h
    split at h
    · cases h
    · split at h
      · cases h
      · rename_i st hu
        split at h
        · cases h
        · cases h; exact binary_keeps ord hord hu _ _
  · intro comp h
    unfold composition at h
    simp only at h
    split at h
    · split at h
      · cases comp with
        | fc => exact gc _ _ h
        | bx => exact gc _ _ h
        | bc =>
          simp only [compositionFallback] at h
          unfold generalisedBackwardComposition at h
          split at h
          · split at h
            · split at h
              · split at h
                · cases h
                · split at h
                  · split at h
                    · cases h
                    · rename_i st hu
                      cases h; exact binary_keeps ord hord hu _ _
                  · cases h
              · cases h
            · cases h
          · cases h
      · rename_i st hu
        split at h
        · cases h; exact binary_keeps ord hord hu _ _
        · cases h
    · cases h

/-- `S\NP` with the head word 7 applied backward to `NP` with the head word 3 keeps both words. -/
example : ∃ t, application demoOrd (lexical (demoNP 1) 3) (lexical (.slash '\\' (demoS .none 1) (demoNP 2) 1 none 0) 7) false = .ok (some t) ∧
    (∃ w y, t.varMap w = some y ∧ y.fillers = [7]) ∧ ∃ w y, t.varMap w = some y ∧ y.fillers = [3] := by
  refine ⟨_, rfl, ⟨2, _, rfl, rfl⟩, ⟨1, _, rfl, rfl⟩⟩

end Bobcat
end Lambeq
