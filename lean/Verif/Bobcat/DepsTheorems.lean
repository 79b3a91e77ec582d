import Verif.Bobcat.Deps
import Mathlib.Tactic.NormNum

/-!
# C111: dependencies, tags and the result of a parse
-/

set_option linter.unusedVariables false
set_option linter.unusedSimpArgs false
set_option linter.unusedSectionVars false

namespace Lambeq
namespace Bobcat
namespace DTree

/-! ## Specification -/

/-- The words of a tree from left to right, with their positions and categories. -/
def leaves : DTree → List (String × Nat × BCat)
  | .leaf w i t _ => [(w, i, t.cat)]
  | .un _ c _ => c.leaves
  | .bin _ l r _ _ => l.leaves ++ r.leaves

/-- The positions of the words of a tree. -/
def positions (t : DTree) : List Nat := t.leaves.map (fun l => l.2.1)

/-- Every dependency that was filled somewhere in the tree. -/
def allFilled : DTree → List Dep
  | .leaf .. => []
  | .un _ c _ => c.allFilled
  | .bin _ l r _ f => f ++ l.allFilled ++ r.allFilled

/-- The relations that a category mentions. -/
def relations : BCat → List Nat
  | .atomic _ _ _ r => r.toList
  | .slash _ res arg _ r _ => r.toList ++ relations res ++ relations arg

/-- The categories at which a type changing rule was applied. -/
def changed : DTree → List BCat
  | .leaf .. => []
  | .un t c _ => (if t.rule = .u then [t.cat] else []) ++ c.changed
  | .bin t l r _ _ => (if t.rule = .lp ∨ t.rule = .rp then [t.cat] else []) ++ l.changed ++ r.changed

/-- The trees that the parser makes: words, and trees made by the rules out of such trees, whatever the categories are. -/
inductive Built : DTree → Prop
  | lexical {cat w i t} : lexical cat w i = .ok t → Built t
  | coordination {cat l r t} : Built l → Built r → coordination cat l r = .ok t → Built t
  | unary {cat l uid replace t} : Built l → changing .u cat l none uid replace = .ok t → Built t
  | punct {rule cat l r uid replace t} : Built l → Built r → (rule = .lp ∨ rule = .rp) →
      changing rule cat l (some r) uid replace = .ok t → Built t
  | passing {rule l r keepRight} : Built l → Built r → Built (passing rule l r keepRight)
  | raising {cat l} : Built l → Built (raising cat l)
  | combining {rule cat l r st} : Built l → Built r → Built (combining rule cat l r st)

/-- Where the relation of a dependency comes from: from the category of its head word, from a conjunction, or from the category at which
a type changing rule was applied. -/
def Caused (t : DTree) (d : Dep) : Prop :=
  (∃ w c k, (w, d.head, c) ∈ t.leaves ∧ d.rel = .slot k ∧ k ∈ relations c) ∨ d.rel = .conj ∨
  (∃ c ∈ t.changed, ∃ k, d.rel = .slot k ∧ k ∈ relations c)

/-! ## The invariant -/

/-- What holds of all dependencies and variables of a tree. -/
structure Inv (t : DTree) : Prop where
  vars : ∀ k v, t.root.varMap k = some v → ∀ f ∈ v.fillers, f ∈ t.positions
  unfilled : ∀ d ∈ t.unfilled, d.head ∈ t.positions ∧ d.filler = none ∧ Caused t d
  filled : ∀ d ∈ t.allFilled, d.head ∈ t.positions ∧ (∃ f ∈ t.positions, d.filler = some f) ∧ Caused t d

theorem Caused.congr {t : DTree} {d d' : Dep} (h : Caused t d) (h1 : d'.rel = d.rel) (h2 : d'.head = d.head) : Caused t d' := by
  unfold Caused at *
  rw [h1, h2]; exact h

theorem Caused.mono {t t' : DTree} {d : Dep} (h : Caused t d) (h1 : ∀ l ∈ t.leaves, l ∈ t'.leaves) (h2 : ∀ c ∈ t.changed, c ∈ t'.changed) :
    Caused t' d := by
  rcases h with ⟨w, c, k, h3, h4, h5⟩ | h3 | ⟨c, h3, k, h4, h5⟩
  · exact .inl ⟨w, c, k, h1 _ h3, h4, h5⟩
  · exact .inr (.inl h3)
  · exact .inr (.inr ⟨c, h2 _ h3, k, h4, h5⟩)

theorem positions_mono {t t' : DTree} (h : ∀ l ∈ t.leaves, l ∈ t'.leaves) : ∀ i ∈ t.positions, i ∈ t'.positions := by
  intro i hi
  simp only [positions, List.mem_map] at *
  obtain ⟨l, h1, h2⟩ := hi
  exact ⟨l, h _ h1, h2⟩

theorem mem_generate {uid : Nat} {heads : List Nat} {cat : BCat} {d : Dep} (h : d ∈ generate uid heads cat) :
    d.head ∈ heads ∧ d.filler = none ∧ ∃ k, d.rel = .slot k ∧ k ∈ relations cat := by
  induction cat with
  | atomic a f v r =>
    cases r with
    | none => simp [generate] at h
    | some k =>
      simp only [generate, List.mem_map] at h
      obtain ⟨x, hx, rfl⟩ := h
      exact ⟨hx, rfl, k, rfl, by simp [relations]⟩
  | slash dir res arg v r tr ih1 ih2 =>
    simp only [generate, List.mem_append] at h
    rcases h with (h | h) | h
    · cases r with
      | none => simp at h
      | some k =>
        simp only [List.mem_map] at h
        obtain ⟨x, hx, rfl⟩ := h
        exact ⟨hx, rfl, k, rfl, by simp [relations]⟩
    · obtain ⟨h1, h2, k, h3, h4⟩ := ih1 h
      exact ⟨h1, h2, k, h3, by simp [relations, h4]⟩
    · obtain ⟨h1, h2, k, h3, h4⟩ := ih2 h
      exact ⟨h1, h2, k, h3, by simp [relations, h4]⟩

theorem inv_lexical {cat : BCat} {w : String} {i : Nat} {t : DTree} (h : lexical cat w i = .ok t) : Inv t := by
  unfold lexical at h
  split at h
  · cases h
  · cases h
    refine ⟨?_, ?_, ?_⟩
    · intro k v hv f hf
      simp only [root, put] at hv
      split at hv
      · cases hv; simpa [positions, leaves] using hf
      · cases hv
    · intro d hd
      obtain ⟨h1, h2, k, h3, h4⟩ := mem_generate hd
      simp only [List.mem_singleton] at h1
      refine ⟨by simp [positions, leaves, h1], h2, .inl ⟨w, cat, k, by simp [leaves, h1], h3, h4⟩⟩
    · intro d hd; simp [allFilled] at hd

theorem fill_spec {d x : Dep} {v : Variable} (h : x ∈ d.fill v) :
    x.rel = d.rel ∧ x.head = d.head ∧ x.uid = d.uid ∧ ∃ f ∈ v.fillers, x.filler = some f := by
  simp only [Dep.fill, List.mem_map] at h
  obtain ⟨f, hf, rfl⟩ := h
  exact ⟨rfl, rfl, rfl, f, hf, rfl⟩

theorem mem_settle (vars : Nat → Option Variable) (ds : List (Dep × Nat)) :
    (∀ d ∈ (settle vars ds).1, ∃ p ∈ ds, d = p.1.move p.2 p.1.uid ∧ ∀ x, vars p.2 = some x → x.filled = false) ∧
    (∀ d ∈ (settle vars ds).2, ∃ p ∈ ds, ∃ x, vars p.2 = some x ∧ x.filled = true ∧ d ∈ p.1.fill x) := by
  induction ds with
  | nil => simp [settle]
  | cons p ds ih =>
    obtain ⟨d, v⟩ := p
    obtain ⟨ih1, ih2⟩ := ih
    have lift1 : ∀ d' ∈ (settle vars ds).1, ∃ p ∈ (d, v) :: ds, d' = p.1.move p.2 p.1.uid ∧ ∀ x, vars p.2 = some x → x.filled = false := by
      intro d' hd'
      obtain ⟨p, h1, h2⟩ := ih1 d' hd'
      exact ⟨p, by simp [h1], h2⟩
    have lift2 : ∀ d' ∈ (settle vars ds).2, ∃ p ∈ (d, v) :: ds, ∃ x, vars p.2 = some x ∧ x.filled = true ∧ d' ∈ p.1.fill x := by
      intro d' hd'
      obtain ⟨p, h1, h2⟩ := ih2 d' hd'
      exact ⟨p, by simp [h1], h2⟩
    simp only [settle]
    cases hv : vars v with
    | none =>
      refine ⟨?_, lift2⟩
      intro d' hd'
      simp only [List.mem_cons] at hd'
      rcases hd' with rfl | hd'
      · exact ⟨(d, v), by simp, rfl, by simp [hv]⟩
      · exact lift1 _ hd'
    | some x =>
      simp only
      cases hf : x.filled with
      | true =>
        simp only [if_true]
        refine ⟨lift1, ?_⟩
        intro d' hd'
        simp only [List.mem_append] at hd'
        rcases hd' with hd' | hd'
        · exact ⟨(d, v), by simp, x, hv, hf, hd'⟩
        · exact lift2 _ hd'
      | false =>
        simp only [Bool.false_eq_true, if_false]
        refine ⟨?_, lift2⟩
        intro d' hd'
        simp only [List.mem_cons] at hd'
        rcases hd' with rfl | hd'
        · exact ⟨(d, v), by simp, rfl, by simp [hv, hf]⟩
        · exact lift1 _ hd'

theorem mem_translated {trans : Nat → Option Nat} {ds : List Dep} {p : Dep × Nat} :
    p ∈ translated trans ds ↔ p.1 ∈ ds ∧ trans p.1.var = some p.2 := by
  simp only [translated, List.mem_filterMap, Option.map_eq_some_iff]
  constructor
  · rintro ⟨d, h1, v, h2, rfl⟩; exact ⟨h1, h2⟩
  · rintro ⟨h1, h2⟩; exact ⟨p.1, h1, p.2, h2, rfl⟩

theorem combinedVars_fillers {l r : Tree} {st : UState} {k : Nat} {v : Variable} (h : combinedVars l r st k = some v) :
    ∀ f ∈ v.fillers, (∃ j x, l.varMap j = some x ∧ f ∈ x.fillers) ∨ (∃ j x, r.varMap j = some x ∧ f ∈ x.fillers) := by
  intro f hf
  unfold combinedVars at h
  split at h
  · have left : ∀ x, (st.oldL k).bind l.varMap = some x → f ∈ x.fillers → ∃ j x, l.varMap j = some x ∧ f ∈ x.fillers := by
      intro x hx hfx
      cases ho : st.oldL k with
      | none => simp [ho] at hx
      | some j => exact ⟨j, x, by simpa [ho] using hx, hfx⟩
    have right : ∀ x, (st.oldR k).bind r.varMap = some x → f ∈ x.fillers → ∃ j x, r.varMap j = some x ∧ f ∈ x.fillers := by
      intro x hx hfx
      cases ho : st.oldR k with
      | none => simp [ho] at hx
      | some j => exact ⟨j, x, by simpa [ho] using hx, hfx⟩
    split at h
    · rename_i a b ha hb
      cases h
      simp only [Variable.add, List.mem_append] at hf
      rcases hf with hf | hf
      · exact .inl (left _ ha hf)
      · exact .inr (right _ hb hf)
    · rename_i a ha hb
      cases h; exact .inl (left _ ha hf)
    · rename_i b ha hb
      cases h; exact .inr (right _ hb hf)
    · cases h
  · cases h

theorem inv_combining {rule : Rule} {cat : BCat} {l r : DTree} {st : UState} (hl : Inv l) (hr : Inv r) : Inv (combining rule cat l r st) := by
  have leavesL : ∀ x ∈ l.leaves, x ∈ (combining rule cat l r st).leaves := by intro x hx; simp [combining, leaves, hx]
  have leavesR : ∀ x ∈ r.leaves, x ∈ (combining rule cat l r st).leaves := by intro x hx; simp [combining, leaves, hx]
  have chL : ∀ x ∈ l.changed, x ∈ (combining rule cat l r st).changed := by intro x hx; simp [combining, changed, hx]
  have chR : ∀ x ∈ r.changed, x ∈ (combining rule cat l r st).changed := by intro x hx; simp [combining, changed, hx]
  have hv : ∀ k v, (combining rule cat l r st).root.varMap k = some v → ∀ f ∈ v.fillers, f ∈ (combining rule cat l r st).positions := by
    intro k v hv f hf
    rcases combinedVars_fillers (l := l.root) (r := r.root) (st := st) (k := k) (v := v) hv f hf with ⟨j, x, h1, h2⟩ | ⟨j, x, h1, h2⟩
    · exact positions_mono leavesL _ (hl.vars j x h1 f h2)
    · exact positions_mono leavesR _ (hr.vars j x h1 f h2)
  have hsrc : ∀ p ∈ translated st.transL l.unfilled ++ translated st.transR r.unfilled,
      p.1.head ∈ (combining rule cat l r st).positions ∧ p.1.filler = none ∧ Caused (combining rule cat l r st) p.1 := by
    intro p hp
    simp only [List.mem_append, mem_translated] at hp
    rcases hp with hp | hp
    · obtain ⟨h1, h2, h3⟩ := hl.unfilled _ hp.1
      exact ⟨positions_mono leavesL _ h1, h2, h3.mono leavesL chL⟩
    · obtain ⟨h1, h2, h3⟩ := hr.unfilled _ hp.1
      exact ⟨positions_mono leavesR _ h1, h2, h3.mono leavesR chR⟩
  obtain ⟨s1, s2⟩ := mem_settle (binaryCombinator rule cat l.root r.root st).varMap
    (translated st.transL l.unfilled ++ translated st.transR r.unfilled)
  refine ⟨hv, ?_, ?_⟩
  · intro d hd
    obtain ⟨p, h1, rfl, _⟩ := s1 d hd
    obtain ⟨h2, h3, h4⟩ := hsrc p h1
    exact ⟨h2, h3, h4.congr rfl rfl⟩
  · intro d hd
    have hd' : d ∈ (settle (binaryCombinator rule cat l.root r.root st).varMap
      (translated st.transL l.unfilled ++ translated st.transR r.unfilled)).2 ∨ d ∈ l.allFilled ∨ d ∈ r.allFilled := by
      simpa [combining, allFilled, or_assoc] using hd
    rcases hd' with hd' | hd' | hd'
    · obtain ⟨p, h1, x, h2, h3, h4⟩ := s2 d hd'
      obtain ⟨e1, e2, _, f, hf, e3⟩ := fill_spec h4
      obtain ⟨h5, _, h7⟩ := hsrc p h1
      exact ⟨by rw [e2]; exact h5, ⟨f, hv _ x h2 f hf, e3⟩, h7.congr e1 e2⟩
    · obtain ⟨h1, ⟨f, h2, h3⟩, h4⟩ := hl.filled d hd'
      exact ⟨positions_mono leavesL _ h1, ⟨f, positions_mono leavesL _ h2, h3⟩, h4.mono leavesL chL⟩
    · obtain ⟨h1, ⟨f, h2, h3⟩, h4⟩ := hr.filled d hd'
      exact ⟨positions_mono leavesR _ h1, ⟨f, positions_mono leavesR _ h2, h3⟩, h4.mono leavesR chR⟩

/-- A binary node that fills nothing. -/
theorem inv_bin {t : Tree} {l r : DTree} {u : List Dep} (hl : Inv l) (hr : Inv r)
    (hv : ∀ k v, t.varMap k = some v → ∀ f ∈ v.fillers, f ∈ (DTree.bin t l r u []).positions)
    (hu : ∀ d ∈ u, d.head ∈ (DTree.bin t l r u []).positions ∧ d.filler = none ∧ Caused (.bin t l r u []) d) : Inv (.bin t l r u []) := by
  have leavesL : ∀ x ∈ l.leaves, x ∈ (DTree.bin t l r u []).leaves := by intro x hx; simp [leaves, hx]
  have leavesR : ∀ x ∈ r.leaves, x ∈ (DTree.bin t l r u []).leaves := by intro x hx; simp [leaves, hx]
  have chL : ∀ x ∈ l.changed, x ∈ (DTree.bin t l r u []).changed := by intro x hx; simp [changed, hx]
  have chR : ∀ x ∈ r.changed, x ∈ (DTree.bin t l r u []).changed := by intro x hx; simp [changed, hx]
  refine ⟨hv, hu, ?_⟩
  intro d hd
  simp only [allFilled, List.nil_append, List.mem_append] at hd
  rcases hd with hd | hd
  · obtain ⟨h1, ⟨f, h2, h3⟩, h4⟩ := hl.filled d hd
    exact ⟨positions_mono leavesL _ h1, ⟨f, positions_mono leavesL _ h2, h3⟩, h4.mono leavesL chL⟩
  · obtain ⟨h1, ⟨f, h2, h3⟩, h4⟩ := hr.filled d hd
    exact ⟨positions_mono leavesR _ h1, ⟨f, positions_mono leavesR _ h2, h3⟩, h4.mono leavesR chR⟩

theorem inv_coordination {cat : BCat} {l r t : DTree} (hl : Inv l) (hr : Inv r) (h : coordination cat l r = .ok t) : Inv t := by
  have key : ∀ ds : List Dep, (∀ d ∈ ds, d ∈ r.unfilled ∨ ∃ w h a, l.root.headVar = some w ∧ h ∈ w.fillers ∧ d = ⟨.conj, h, a, 0, none⟩) →
      Inv (.bin ⟨.conj, cat, fun k => (r.root.varMap k).map (fun v => v.asFilled false)⟩ l r ds []) := by
    intro ds hds
    have leavesL : ∀ x ∈ l.leaves, x ∈ (DTree.bin ⟨.conj, cat, fun k => (r.root.varMap k).map (fun v => v.asFilled false)⟩ l r ds []).leaves := by
      intro x hx; simp [leaves, hx]
    have leavesR : ∀ x ∈ r.leaves, x ∈ (DTree.bin ⟨.conj, cat, fun k => (r.root.varMap k).map (fun v => v.asFilled false)⟩ l r ds []).leaves := by
      intro x hx; simp [leaves, hx]
    refine inv_bin hl hr ?_ ?_
    · intro k v hv f hf
      simp only [Option.map_eq_some_iff] at hv
      obtain ⟨x, h1, rfl⟩ := hv
      exact positions_mono leavesR _ (hr.vars k x h1 f hf)
    · intro d hd
      rcases hds d hd with h1 | ⟨w, h, a, h1, h2, rfl⟩
      · obtain ⟨h2, h3, h4⟩ := hr.unfilled d h1
        exact ⟨positions_mono leavesR _ h2, h3, h4.mono leavesR (by intro x hx; simp [changed, hx])⟩
      · exact ⟨positions_mono leavesL _ (hl.vars _ w h1 h h2), rfl, .inr (.inl rfl)⟩
  unfold coordination at h
  simp only at h
  split at h
  · cases h; exact key _ (fun d hd => .inl hd)
  · split at h
    · split at h
      · cases h
      · rename_i w hw
        split at h
        · cases h
        · rename_i f fs hf
          split at h
          · cases h
          · cases h
            refine key _ ?_
            intro d hd
            simp only [List.mem_append, List.mem_singleton] at hd
            rcases hd with hd | rfl
            · exact .inl hd
            · exact .inr ⟨w, f, _, hw, by simp [hf], rfl⟩
    · cases h; exact key _ (fun d hd => .inl hd)

theorem mem_changedDeps {cat : BCat} {head : DTree} {uid : Nat} {rep : Bool} {ds : List Dep} (h : changedDeps cat head uid rep = .ok ds) :
    ∀ d ∈ ds, (∃ d' ∈ head.unfilled, d.rel = d'.rel ∧ d.head = d'.head ∧ d.filler = d'.filler ∧ d.uid = uid) ∨
      (∃ v, head.root.headVar = some v ∧ d.head ∈ v.fillers ∧ d.filler = none ∧ ∃ k, d.rel = .slot k ∧ k ∈ relations cat) := by
  unfold changedDeps at h
  split at h
  · split at h
    · cases h
    · split at h
      · cases h
      · split at h
        · cases h; simp
        · split at h
          · cases h
          · cases h
            intro d hd
            simp only [List.mem_map, List.mem_filter] at hd
            obtain ⟨d', ⟨h1, _⟩, rfl⟩ := hd
            exact .inl ⟨d', h1, rfl, rfl, rfl, rfl⟩
  · split at h
    · rename_i v hv
      cases h
      intro d hd
      obtain ⟨h1, h2, h3⟩ := mem_generate hd
      exact .inr ⟨v, hv, h1, h2, h3⟩
    · cases h; simp

theorem typeChanging_fillers {rule : Rule} {cat : BCat} {l : Tree} {r : Option Tree} {k : Nat} {v : Variable}
    (h : (typeChanging rule cat l r).varMap k = some v) :
    (∃ j, l.varMap j = some v) ∨ ∃ x, r = some x ∧ ∃ j, x.varMap j = some v := by
  have core : ∀ head : Tree, (match head.headVar with
      | some v => if cat.var ≠ 0 then put (fun _ => none) cat.var v else fun _ => none
      | none => fun _ => none) k = some v → ∃ j, head.varMap j = some v := by
    intro head hh
    cases hw : head.headVar with
    | none => simp [hw] at hh
    | some w =>
      simp only [hw] at hh
      by_cases hc : cat.var ≠ 0
      · rw [if_pos hc] at hh
        unfold put at hh
        split at hh
        · cases hh; exact ⟨_, hw⟩
        · cases hh
      · rw [if_neg hc] at hh; cases hh
  cases r with
  | none => exact .inl (core l (by cases rule <;> exact h))
  | some x =>
    by_cases hr : rule = .lp
    · subst hr; exact .inr ⟨x, rfl, core x h⟩
    · exact .inl (core l (by cases rule <;> first | exact h | exact absurd rfl hr))

theorem inv_unary {cat : BCat} {l t : DTree} {uid : Nat} {rep : Bool} (hl : Inv l) (h : changing .u cat l none uid rep = .ok t) : Inv t := by
  unfold changing at h
  simp only at h
  split at h
  · cases h
  · rename_i ds hds
    cases h
    refine ⟨?_, ?_, ?_⟩
    · intro k v hv f hf
      rcases typeChanging_fillers (r := none) hv with ⟨j, hj⟩ | ⟨x, hx, _⟩
      · exact hl.vars j v hj f hf
      · cases hx
    · intro d hd
      rcases mem_changedDeps hds d hd with ⟨d', h1, h2, h3, h4, _⟩ | ⟨v, h1, h2, h3, k, h4, h5⟩
      · obtain ⟨e1, e2, e3⟩ := hl.unfilled d' h1
        refine ⟨by rw [h3]; exact e1, by rw [h4]; exact e2, ?_⟩
        exact (e3.mono (t' := .un (typeChanging .u cat l.root none) l ds) (fun x hx => hx) (by intro x hx; simp [changed, hx])).congr h2 h3
      · refine ⟨hl.vars _ v h1 _ h2, h3, .inr (.inr ⟨cat, ?_, k, h4, h5⟩)⟩
        simp [changed, typeChanging]
    · intro d hd
      obtain ⟨e1, e2, e3⟩ := hl.filled d hd
      exact ⟨e1, e2, e3.mono (fun x hx => hx) (by intro x hx; simp [changed, hx])⟩

theorem inv_punct {rule : Rule} {cat : BCat} {l r t : DTree} {uid : Nat} {rep : Bool} (hl : Inv l) (hr : Inv r) (hrule : rule = .lp ∨ rule = .rp)
    (h : changing rule cat l (some r) uid rep = .ok t) : Inv t := by
  unfold changing at h
  simp only at h
  split at h
  · cases h
  · rename_i ds hds
    cases h
    have leavesL : ∀ x ∈ l.leaves, x ∈ (DTree.bin (typeChanging rule cat l.root (some r.root)) l r ds []).leaves := by
      intro x hx; simp [leaves, hx]
    have leavesR : ∀ x ∈ r.leaves, x ∈ (DTree.bin (typeChanging rule cat l.root (some r.root)) l r ds []).leaves := by
      intro x hx; simp [leaves, hx]
    have chL : ∀ x ∈ l.changed, x ∈ (DTree.bin (typeChanging rule cat l.root (some r.root)) l r ds []).changed := by
      intro x hx; simp [changed, hx]
    have chR : ∀ x ∈ r.changed, x ∈ (DTree.bin (typeChanging rule cat l.root (some r.root)) l r ds []).changed := by
      intro x hx; simp [changed, hx]
    refine inv_bin hl hr ?_ ?_
    · intro k v hv f hf
      rcases typeChanging_fillers hv with ⟨j, hj⟩ | ⟨x, hx, j, hj⟩
      · exact positions_mono leavesL _ (hl.vars j v hj f hf)
      · cases hx; exact positions_mono leavesR _ (hr.vars j v hj f hf)
    · intro d hd
      have side : ∃ s : DTree, Inv s ∧ (∀ x ∈ s.leaves, x ∈ (DTree.bin (typeChanging rule cat l.root (some r.root)) l r ds []).leaves) ∧
          (∀ x ∈ s.changed, x ∈ (DTree.bin (typeChanging rule cat l.root (some r.root)) l r ds []).changed) ∧
          changedDeps cat s uid rep = .ok ds := by
        rcases hrule with rfl | rfl
        · exact ⟨r, hr, leavesR, chR, hds⟩
        · exact ⟨l, hl, leavesL, chL, hds⟩
      obtain ⟨s, hs, sl, sc, hds'⟩ := side
      rcases mem_changedDeps hds' d hd with ⟨d', h1, h2, h3, h4, _⟩ | ⟨v, h1, h2, h3, k, h4, h5⟩
      · obtain ⟨e1, e2, e3⟩ := hs.unfilled d' h1
        exact ⟨by rw [h3]; exact positions_mono sl _ e1, by rw [h4]; exact e2, (e3.mono sl sc).congr h2 h3⟩
      · refine ⟨positions_mono sl _ (hs.vars _ v h1 _ h2), h3, .inr (.inr ⟨cat, ?_, k, h4, h5⟩)⟩
        rcases hrule with rfl | rfl <;> simp [changed, typeChanging]

theorem inv_passing {rule : Rule} {l r : DTree} {b : Bool} (hl : Inv l) (hr : Inv r) : Inv (passing rule l r b) := by
  have side : ∃ s : DTree, Inv s ∧ (s = l ∨ s = r) ∧ passing rule l r b = .bin (passThrough rule s.root) l r s.unfilled [] := by
    cases b
    · exact ⟨l, hl, .inl rfl, rfl⟩
    · exact ⟨r, hr, .inr rfl, rfl⟩
  obtain ⟨s, hs, hlr, e⟩ := side
  rw [e]
  have sl : ∀ x ∈ s.leaves, x ∈ (DTree.bin (passThrough rule s.root) l r s.unfilled []).leaves := by
    intro x hx; rcases hlr with rfl | rfl <;> simp [leaves, hx]
  have sc : ∀ x ∈ s.changed, x ∈ (DTree.bin (passThrough rule s.root) l r s.unfilled []).changed := by
    intro x hx; rcases hlr with rfl | rfl <;> simp [changed, hx]
  refine inv_bin hl hr ?_ ?_
  · intro k v hv f hf; exact positions_mono sl _ (hs.vars k v hv f hf)
  · intro d hd
    obtain ⟨h1, h2, h3⟩ := hs.unfilled d hd
    exact ⟨positions_mono sl _ h1, h2, h3.mono sl sc⟩

theorem inv_raising {cat : BCat} {l : DTree} (hl : Inv l) : Inv (raising cat l) := by
  refine ⟨?_, ?_, ?_⟩
  · intro k v hv f hf
    have : ∃ j, l.root.varMap j = some v := by
      simp only [raising, root, typeRaising] at hv
      cases hw : l.root.headVar with
      | none => simp only [root] at hw; simp [hw] at hv
      | some w =>
        simp only [root] at hw
        simp only [hw] at hv
        unfold put at hv
        split at hv
        · cases hv; exact ⟨_, hw⟩
        · cases hv
    obtain ⟨j, hj⟩ := this
    exact hl.vars j v hj f hf
  · intro d hd
    have hd : ∃ var, d ∈ (if var ≠ 0 then l.unfilled.map (fun d => d.move var d.uid) else []) := ⟨_, hd⟩
    obtain ⟨var, hd⟩ := hd
    split at hd
    · simp only [List.mem_map] at hd
      obtain ⟨d', h1, rfl⟩ := hd
      obtain ⟨h2, h3, h4⟩ := hl.unfilled d' h1
      exact ⟨h2, h3, (h4.mono (t' := raising cat l) (fun x hx => hx) (by intro x hx; simp [raising, changed, hx])).congr rfl rfl⟩
    · cases hd
  · intro d hd
    obtain ⟨e1, e2, e3⟩ := hl.filled d hd
    exact ⟨e1, e2, e3.mono (fun x hx => hx) (by intro x hx; simp [raising, changed, hx])⟩

theorem Built.inv {t : DTree} (h : Built t) : Inv t := by
  induction h with
  | lexical h => exact inv_lexical h
  | coordination _ _ h ih1 ih2 => exact inv_coordination ih1 ih2 h
  | unary _ h ih => exact inv_unary ih h
  | punct _ _ h1 h2 ih1 ih2 => exact inv_punct ih1 ih2 h1 h2
  | passing _ _ ih1 ih2 => exact inv_passing ih1 ih2
  | raising _ ih => exact inv_raising ih
  | combining _ _ ih1 ih2 => exact inv_combining ih1 ih2

/-! ## Dependencies and tags -/

instance : Std.Total before := ⟨by intro a b; unfold before; omega⟩
instance : IsTrans Dep before := ⟨by intro a b c; unfold before; omega⟩

theorem sortDeps_ok {ds : List Dep} (h : ∀ d ∈ ds, d.filler.isSome) : sortDeps ds = .ok (ds.insertionSort before) := by
  unfold sortDeps
  rw [if_pos (by simpa [List.all_eq_true] using h)]

theorem depsAndTags_ok (t : DTree) (h : ∀ d ∈ t.allFilled, d.filler.isSome) (sub : ∀ w i tr u, t = .leaf w i tr u → True) :
    ∃ ds tags, t.depsAndTags = .ok (ds, tags) ∧ ds.Perm t.allFilled ∧ ds.Pairwise before ∧
      tags = t.leaves.map (fun l => dropX l.2.2.str) := by
  induction t with
  | leaf w i t u => exact ⟨[], [dropX t.cat.str], rfl, by simp [allFilled], by simp, rfl⟩
  | un t c u ih =>
    obtain ⟨ds, tags, e, hp, hs, ht⟩ := ih h (by simp)
    have hf : ∀ d ∈ ds, d.filler.isSome := fun d hd => h d (hp.mem_iff.1 hd)
    refine ⟨ds.insertionSort before, tags, by simp only [depsAndTags, e, sortDeps_ok hf], ?_, List.pairwise_insertionSort _ _, ht⟩
    exact (List.perm_insertionSort _ _).trans hp
  | bin t l r u f ih1 ih2 =>
    obtain ⟨d1, t1, e1, p1, s1, g1⟩ := ih1 (fun d hd => h d (by simp [allFilled, hd])) (by simp)
    obtain ⟨d2, t2, e2, p2, s2, g2⟩ := ih2 (fun d hd => h d (by simp [allFilled, hd])) (by simp)
    have hp : (f ++ d1 ++ d2).Perm (f ++ l.allFilled ++ r.allFilled) := (List.Perm.append_left f p1).append p2
    have hf : ∀ d ∈ f ++ d1 ++ d2, d.filler.isSome := fun d hd => h d (hp.mem_iff.1 hd)
    refine ⟨(f ++ d1 ++ d2).insertionSort before, t1 ++ t2, by simp only [depsAndTags, e1, e2, sortDeps_ok hf],
      (List.perm_insertionSort _ _).trans hp, List.pairwise_insertionSort _ _, ?_⟩
    rw [g1, g2]; simp [leaves]

/-- **C111 (dependencies).** The dependencies of every tree that the parser makes are those filled by its rules, each once, ordered by head
and then by filler, and heads and fillers are words of the tree; there is one tag per word, in the order of the words: its category without
`[X]`. Nothing is raised. -/
theorem C111_deps (t : DTree) (h : Built t) :
    ∃ ds tags, t.depsAndTags = .ok (ds, tags) ∧ ds.Perm t.allFilled ∧ tags = t.leaves.map (fun l => dropX l.2.2.str) ∧
      (∀ d ∈ ds, d.head ∈ t.positions ∧ ∃ f ∈ t.positions, d.filler = some f) ∧
      ds.Pairwise (fun a b => a.head < b.head ∨ (a.head = b.head ∧ ∀ f g, a.filler = some f → b.filler = some g → f ≤ g)) := by
  have hi := h.inv
  obtain ⟨ds, tags, e, hp, hs, ht⟩ := depsAndTags_ok t (by
    intro d hd
    obtain ⟨_, ⟨f, _, hf⟩, _⟩ := hi.filled d hd
    simp [hf]) (by simp)
  refine ⟨ds, tags, e, hp, ht, ?_, ?_⟩
  · intro d hd
    obtain ⟨h1, h2, _⟩ := hi.filled d (hp.mem_iff.1 hd)
    exact ⟨h1, h2⟩
  · refine hs.imp ?_
    intro a b hab
    rcases hab with h1 | ⟨h1, h2⟩
    · exact .inl h1
    · refine .inr ⟨h1, fun f g hf hg => ?_⟩
      simpa [hf, hg] using h2

/-- **C111 (relations).** Every dependency comes from the category of its head word, from a conjunction, or from a type changing rule of
the tree. -/
theorem C111_relations (t : DTree) (h : Built t) (ds : List Dep) (tags : List (List Char)) (e : t.depsAndTags = .ok (ds, tags)) :
    ∀ d ∈ ds, (∃ w c k, (w, d.head, c) ∈ t.leaves ∧ d.rel = .slot k ∧ k ∈ relations c) ∨ d.rel = .conj ∨
      (∃ c ∈ t.changed, ∃ k, d.rel = .slot k ∧ k ∈ relations c) := by
  have hi := h.inv
  obtain ⟨ds', tags', e', hp, _⟩ := C111_deps t h
  rw [e] at e'; cases e'
  intro d hd
  exact (hi.filled d (hp.mem_iff.1 hd)).2.2

/-! ## Arguments -/

/-- What unifying an atomic argument leaves in the tables. -/
def Bound (lv rv : Nat) (st : UState) : Prop :=
  2 ≤ st.num ∧ st.oldL 1 = some lv ∧ st.oldR 1 = some rv ∧ st.transL lv = some 1 ∧ st.transR rv = some 1

theorem bound_addL {lv rv : Nat} (vars : List Nat) {st : UState} (h : Bound lv rv st) : Bound lv rv (addVarsL vars st) := by
  induction vars generalizing st with
  | nil => exact h
  | cons v vars ih =>
    refine ih ?_
    obtain ⟨h1, h2, h3, h4, h5⟩ := h
    beta_reduce
    split
    · rename_i hv
      refine ⟨by simp only; omega, ?_, h3, ?_, h5⟩
      · simp only [put]; rw [if_neg (by omega)]; exact h2
      · simp only [put]; rw [if_neg (by rintro rfl; simp [h4] at hv)]; exact h4
    · exact ⟨h1, h2, h3, h4, h5⟩

theorem bound_addR {lv rv : Nat} (vars : List Nat) {st : UState} (h : Bound lv rv st) : Bound lv rv (addVarsR vars st) := by
  induction vars generalizing st with
  | nil => exact h
  | cons v vars ih =>
    refine ih ?_
    obtain ⟨h1, h2, h3, h4, h5⟩ := h
    beta_reduce
    split
    · rename_i hv
      refine ⟨by simp only; omega, h2, ?_, h4, ?_⟩
      · simp only [put]; rw [if_neg (by omega)]; exact h3
      · simp only [put]; rw [if_neg (by rintro rfl; simp [h5] at hv)]; exact h5
    · exact ⟨h1, h2, h3, h4, h5⟩

theorem bound_bind {lm rm : Nat → Option Variable} {lv rv : Nat} {f : Feature} {st : UState}
    (h : bindVars lm rm lv rv { UState.init with feature := f } = some st) : Bound lv rv st := by
  unfold bindVars at h
  simp only [UState.init, Option.isNone_none, Bool.and_true, if_true] at h
  split at h
  · cases h
  · cases h
    exact ⟨by simp, by simp [put], by simp [put], by simp [put], by simp [put]⟩

theorem bound_rec {lm rm : Nat → Option Variable} {l r : BCat} {st : UState} (h : unifyRec lm rm l r UState.init = some st)
    (ha : (∃ a f v k, l = .atomic a f v k) ∨ (∃ a f v k, r = .atomic a f v k)) : Bound l.var r.var st := by
  have feat : ∀ la lf ra rf st', unifyAtoms la lf ra rf UState.init = some st' → ∃ f, st' = { UState.init with feature := f } := by
    intro la lf ra rf st' h
    unfold unifyAtoms at h
    split at h
    · cases h
    · split at h
      · split at h
        · cases h; exact ⟨_, rfl⟩
        · split at h
          · cases h; exact ⟨_, rfl⟩
          · split at h
            · cases h
            · cases h; exact ⟨_, rfl⟩
      · cases h; exact ⟨_, rfl⟩
  cases l with
  | atomic a f v k =>
    simp only [unifyRec] at h
    split at h
    · cases h
    · rename_i st' hst
      obtain ⟨f', rfl⟩ := feat _ _ _ _ _ hst
      exact bound_bind h
  | slash d x y v k tr =>
    rcases ha with ⟨a, f, v', k', e⟩ | ⟨a, f, v', k', e⟩
    · cases e
    · subst e; simp [unifyRec] at h

theorem mem_settle_filled {vars : Nat → Option Variable} {ds : List (Dep × Nat)} {p : Dep × Nat} (hp : p ∈ ds) {x : Variable}
    (hx : vars p.2 = some x) (hf : x.filled = true) : ∀ d ∈ p.1.fill x, d ∈ (settle vars ds).2 := by
  induction ds with
  | nil => cases hp
  | cons q ds ih =>
    obtain ⟨d0, v⟩ := q
    intro d hd
    rcases List.mem_cons.1 hp with rfl | hp'
    · simp only [settle, hx, hf, if_true, List.mem_append]
      exact .inl hd
    · have := ih hp' d hd
      simp only [settle]
      split
      · split
        · simp [this]
        · exact this
      · exact this

/-- **C111 (arguments).** When a category with an atomic argument is applied to a phrase with a head, forwards or backwards, every open
dependency of that argument is filled with the words that head the phrase. -/
theorem C111_argument (ord : BCat → List Nat) (left right : DTree) (fwd : Bool) (rule : Rule) (cat : BCat) (st : UState)
    (d : Dep) (w : Variable) (a : Atom) (f : Feature) (v : Nat) (k : Option Nat)
    (hu : unify ord left.root right.root fwd (if fwd then right else left).root.cat (.atomic a f v k) = some st)
    (hd : d ∈ (if fwd then left else right).unfilled) (hv : d.var = v)
    (hw : (if fwd then right else left).root.headVar = some w) :
    ∀ x ∈ w.fillers, ⟨d.rel, d.head, 0, d.uid, some x⟩ ∈ (combining rule cat left right st).filled := by
  intro x hx
  have fillMem : ∀ y : Variable, x ∈ y.fillers → (⟨d.rel, d.head, 0, d.uid, some x⟩ : Dep) ∈ d.fill y := by
    intro y hy
    exact List.mem_map.2 ⟨x, hy, rfl⟩
  cases fwd with
  | true =>
    simp only [if_true] at hu hd hw
    unfold unify at hu
    simp only [if_true] at hu
    split at hu
    · cases hu
    · rename_i st' hst
      cases hu
      have hb := bound_addL (ord left.root.cat) (bound_addR (ord right.root.cat) (bound_rec hst (.inl ⟨a, f, v, k, rfl⟩)))
      generalize addVarsL (ord left.root.cat) (addVarsR (ord right.root.cat) st') = st at hb
      obtain ⟨h1, h2, h3, h4, h5⟩ := hb
      have hc : ∃ y, combinedVars left.root right.root st 1 = some y ∧ y.filled = true ∧ x ∈ y.fillers := by
        unfold combinedVars
        rw [if_pos ⟨le_refl _, by omega⟩]
        have e : right.root.varMap right.root.cat.var = some w := hw
        rw [h2, h3]
        simp only [Option.bind_some, e]
        split
        · rename_i l r h6 h7; cases h7; exact ⟨_, rfl, rfl, by simp [Variable.add, hx]⟩
        · rename_i h7; cases h7
        · rename_i r h6 h7; cases h7; exact ⟨_, rfl, rfl, hx⟩
        · rename_i h7; cases h7
      obtain ⟨y, hy1, hy2, hy3⟩ := hc
      have := mem_settle_filled (vars := combinedVars left.root right.root st)
        (ds := translated st.transL left.unfilled ++ translated st.transR right.unfilled) (p := (d, 1))
        (by simp only [List.mem_append, mem_translated]; exact .inl ⟨hd, by rw [hv]; exact h4⟩) hy1 hy2 _ (fillMem y hy3)
      exact this
  | false =>
    simp only [Bool.false_eq_true, if_false] at hu hd hw
    unfold unify at hu
    simp only [Bool.false_eq_true, if_false] at hu
    split at hu
    · cases hu
    · rename_i st' hst
      cases hu
      have hb := bound_addR (ord right.root.cat) (bound_addL (ord left.root.cat) (bound_rec hst (.inr ⟨a, f, v, k, rfl⟩)))
      generalize addVarsR (ord right.root.cat) (addVarsL (ord left.root.cat) st') = st at hb
      obtain ⟨h1, h2, h3, h4, h5⟩ := hb
      have hc : ∃ y, combinedVars left.root right.root st 1 = some y ∧ y.filled = true ∧ x ∈ y.fillers := by
        unfold combinedVars
        rw [if_pos ⟨le_refl _, by omega⟩]
        have e : left.root.varMap left.root.cat.var = some w := hw
        rw [h2, h3]
        simp only [Option.bind_some, e]
        split
        · rename_i l r h6 h7; cases h6; exact ⟨_, rfl, rfl, by simp [Variable.add, hx]⟩
        · rename_i l h6 h7; cases h6; exact ⟨_, rfl, rfl, hx⟩
        · rename_i h6 h7; cases h6
        · rename_i h6 h7; cases h6
      obtain ⟨y, hy1, hy2, hy3⟩ := hc
      have := mem_settle_filled (vars := combinedVars left.root right.root st)
        (ds := translated st.transL left.unfilled ++ translated st.transR right.unfilled) (p := (d, 1))
        (by simp only [List.mem_append, mem_translated]; exact .inr ⟨hd, by rw [hv]; exact h5⟩) hy1 hy2 _ (fillMem y hy3)
      exact this

end DTree

/-! ## The result of a parse -/

/-- **C111 (words).** The words of a result are the words of the sentence before the first one without a tree. -/
theorem C111_words {τ : Type} (word : τ → String) (ch : Cells τ) (ws : List String)
    (h : ∀ i ts, ch i i = some ts → ∃ t rest w, ts = t :: rest ∧ ws[i]? = some w ∧ word t = w) :
    ∃ n ≤ ws.length, resultWords word ch (ws.length + 1) 0 = .ok (ws.take n) ∧ (∀ k < n, (ch k k).isSome) ∧ ch n n = none := by
  have main : ∀ fuel s, s + fuel = ws.length + 1 → ∃ n, s ≤ n ∧ n ≤ ws.length ∧ resultWords word ch fuel s = .ok ((ws.drop s).take (n - s)) ∧
      (∀ k, s ≤ k → k < n → (ch k k).isSome) ∧ ch n n = none ∨ (fuel = 0 ∧ (ch s s).isNone ∧ s = ws.length + 1) := by
    intro fuel
    induction fuel with
    | zero =>
      intro s hs
      refine ⟨0, .inr ⟨rfl, ?_, by omega⟩⟩
      cases hc : ch s s with
      | none => rfl
      | some ts =>
        obtain ⟨t, rest, w, _, h2, _⟩ := h s ts hc
        rw [List.getElem?_eq_none (by omega)] at h2; cases h2
    | succ fuel ih =>
      intro s hs
      cases hc : ch s s with
      | none => exact ⟨s, .inl ⟨le_refl _, by omega, by simp [resultWords, hc], by omega, hc⟩⟩
      | some ts =>
        obtain ⟨t, rest, w, rfl, h2, h3⟩ := h s ts hc
        have hlt : s < ws.length := by
          by_contra hge
          rw [List.getElem?_eq_none (by omega)] at h2; cases h2
        obtain ⟨n, hn⟩ := ih (s + 1) (by omega)
        rcases hn with ⟨h4, h5, h6, h7, h8⟩ | ⟨h4, h5, h6⟩
        · refine ⟨n, .inl ⟨by omega, h5, ?_, ?_, h8⟩⟩
          · simp only [resultWords, hc, h6]
            have hd : ws.drop s = w :: ws.drop (s + 1) := by
              rw [List.getElem?_eq_getElem hlt] at h2
              cases h2
              exact List.drop_eq_getElem_cons hlt
            rw [hd, show n - s = (n - (s + 1)) + 1 from by omega, List.take_succ_cons, h3]
          · intro k hk1 hk2
            rcases Nat.eq_or_lt_of_le hk1 with rfl | hk1
            · simp [hc]
            · exact h7 k hk1 hk2
        · omega
  obtain ⟨n, hn⟩ := main (ws.length + 1) 0 (by omega)
  rcases hn with ⟨h1, h2, h3, h4, h5⟩ | ⟨h1, _, _⟩
  · exact ⟨n, h2, by simpa using h3, fun k hk => h4 k (by omega) hk, h5⟩
  · omega

section
variable {τ S : Type} [LinearOrder S]

/-- The best tree of the cell of the `len` words from `i` on, if its score is more than minus infinity. -/
def Usable (score : τ → S) (negInf : S) (ch : Cells τ) (i len : Nat) (t : τ) : Prop :=
  0 < len ∧ (∃ rest, ch i (i + len - 1) = some (t :: rest)) ∧ negInf < score t

/-- The pieces `(first word, number of words, tree)` follow each other from the word `a` to before the word `b`. -/
def Tiles : Nat → List (Nat × Nat × τ) → Nat → Prop
  | a, [], b => a = b
  | a, (i, len, _) :: segs, b => i = a ∧ 0 < len ∧ Tiles (i + len) segs b

theorem tiles_append {a b c : Nat} {s1 s2 : List (Nat × Nat × τ)} (h1 : Tiles a s1 b) (h2 : Tiles b s2 c) : Tiles a (s1 ++ s2) c := by
  induction s1 generalizing a with
  | nil => simp only [Tiles] at h1; subst h1; exact h2
  | cons x s1 ih =>
    obtain ⟨i, len, t⟩ := x
    obtain ⟨rfl, h3, h4⟩ := h1
    exact ⟨rfl, h3, ih h4⟩

variable {score : τ → S} {negInf : S} {ch : Cells τ}

theorem bestAt_spec (hne : ∀ i j, ch i j ≠ some []) (len : Nat) : ∀ k i best found,
    ∃ r, bestAt score ch (len + 1) k i best found = .ok r ∧
    ((r = found ∧ ∀ i' t rest, i ≤ i' → i' < i + k → ch i' (i' + len) = some (t :: rest) → score t ≤ best) ∨
     ∃ i' t rest, r = some (i', t) ∧ i ≤ i' ∧ i' < i + k ∧ ch i' (i' + len) = some (t :: rest) ∧ best < score t ∧
      (∀ i'' t' rest', i ≤ i'' → i'' < i + k → ch i'' (i'' + len) = some (t' :: rest') → score t' ≤ score t)  ∧
      (∀ i'' t' rest', i ≤ i'' → i'' < i' → ch i'' (i'' + len) = some (t' :: rest') → score t' < score t)) := by
  intro k
  induction k with
  | zero => intro i best found; exact ⟨found, rfl, .inl ⟨rfl, by intros; omega⟩⟩
  | succ k ih =>
    intro i best found
    have e : i + (len + 1) - 1 = i + len := by omega
    simp only [bestAt, e]
    cases hc : ch i (i + len) with
    | none =>
      obtain ⟨r, h1, h2⟩ := ih (i + 1) best found
      have push : ∀ {i' : Nat} {t : τ} {rest : List τ}, i ≤ i' → ch i' (i' + len) = some (t :: rest) → i + 1 ≤ i' := by
        intro i' t rest h3 h4
        rcases Nat.eq_or_lt_of_le h3 with rfl | h3
        · rw [hc] at h4; cases h4
        · exact h3
      refine ⟨r, h1, ?_⟩
      rcases h2 with ⟨h2, h3⟩ | ⟨i', t, rest, h2, h3, h4, h5, h6, h7, h8⟩
      · exact .inl ⟨h2, fun i' t rest h4 h5 h6 => h3 i' t rest (push h4 h6) (by omega) h6⟩
      · exact .inr ⟨i', t, rest, h2, by omega, by omega, h5, h6, fun a b c d e f => h7 a b c (push d f) (by omega) f,
          fun a b c d e f => h8 a b c (push d f) e f⟩
    | some ts =>
      cases ts with
      | nil => exact absurd hc (hne _ _)
      | cons t rest =>
        simp only
        by_cases hb : best < score t
        · rw [if_pos hb]
          obtain ⟨r, h1, h2⟩ := ih (i + 1) (score t) (some (i, t))
          refine ⟨r, h1, .inr ?_⟩
          rcases h2 with ⟨rfl, h3⟩ | ⟨i', t', rest', h2, h3, h4, h5, h6, h7, h8⟩
          · refine ⟨i, t, rest, rfl, le_refl _, by omega, hc, hb, ?_, by intros; omega⟩
            intro i'' t'' rest'' h4 h5 h6
            rcases Nat.eq_or_lt_of_le h4 with rfl | h4
            · rw [hc] at h6; cases h6; exact le_refl _
            · exact h3 i'' t'' rest'' h4 (by omega) h6
          · refine ⟨i', t', rest', h2, by omega, by omega, h5, lt_trans hb h6, ?_, ?_⟩
            · intro i'' t'' rest'' h9 h10 h11
              rcases Nat.eq_or_lt_of_le h9 with rfl | h9
              · rw [hc] at h11; cases h11; exact le_of_lt h6
              · exact h7 i'' t'' rest'' h9 (by omega) h11
            · intro i'' t'' rest'' h9 h10 h11
              rcases Nat.eq_or_lt_of_le h9 with rfl | h9
              · rw [hc] at h11; cases h11; exact h6
              · exact h8 i'' t'' rest'' h9 h10 h11
        · rw [if_neg hb]
          obtain ⟨r, h1, h2⟩ := ih (i + 1) best found
          refine ⟨r, h1, ?_⟩
          rcases h2 with ⟨h2, h3⟩ | ⟨i', t', rest', h2, h3, h4, h5, h6, h7, h8⟩
          · refine .inl ⟨h2, fun i'' t'' rest'' h9 h10 h11 => ?_⟩
            rcases Nat.eq_or_lt_of_le h9 with rfl | h9
            · rw [hc] at h11; cases h11; exact not_lt.1 hb
            · exact h3 i'' t'' rest'' h9 (by omega) h11
          · refine .inr ⟨i', t', rest', h2, by omega, by omega, h5, h6, ?_, ?_⟩
            · intro i'' t'' rest'' h9 h10 h11
              rcases Nat.eq_or_lt_of_le h9 with rfl | h9
              · rw [hc] at h11; cases h11; exact le_of_lt (lt_of_le_of_lt (not_lt.1 hb) h6)
              · exact h7 i'' t'' rest'' h9 (by omega) h11
            · intro i'' t'' rest'' h9 h10 h11
              rcases Nat.eq_or_lt_of_le h9 with rfl | h9
              · rw [hc] at h11; cases h11; exact lt_of_le_of_lt (not_lt.1 hb) h6
              · exact h8 i'' t'' rest'' h9 h10 h11

/-- The piece that is taken first: of the spans with a usable tree, a longest one, of those one with the best score, of those the leftmost. -/
def Chosen (score : τ → S) (negInf : S) (ch : Cells τ) (start size i len : Nat) (t : τ) : Prop :=
  start ≤ i ∧ i + len ≤ start + size ∧ Usable score negInf ch i len t ∧
  ∀ i' len' t', start ≤ i' → i' + len' ≤ start + size → Usable score negInf ch i' len' t' →
    len' < len ∨ (len' = len ∧ (score t' < score t ∨ (score t' = score t ∧ i ≤ i')))

theorem longest_spec (hne : ∀ i j, ch i j ≠ some []) (start size : Nat) : ∀ L, L ≤ size →
    (∀ i' len' t', start ≤ i' → i' + len' ≤ start + size → Usable score negInf ch i' len' t' → len' ≤ L) →
    ∃ r, longest score negInf ch start size L = .ok r ∧
    ((r = none ∧ ∀ i' len' t', start ≤ i' → i' + len' ≤ start + size → ¬ Usable score negInf ch i' len' t') ∨
     ∃ len i t, r = some (len, i, t) ∧ Chosen score negInf ch start size i len t) := by
  intro L
  induction L with
  | zero =>
    intro _ hmax
    refine ⟨none, rfl, .inl ⟨rfl, ?_⟩⟩
    intro i' len' t' h1 h2 h3
    have := hmax i' len' t' h1 h2 h3
    have := h3.1
    omega
  | succ L ih =>
    intro hL hmax
    obtain ⟨r, h1, h2⟩ := bestAt_spec (score := score) hne L (size - L) start negInf none
    have shape : ∀ i' : Nat, i' + (L + 1) - 1 = i' + L := by intro i'; omega
    rcases h2 with ⟨rfl, h3⟩ | ⟨i, t, rest, rfl, h3, h4, h5, h6, h7, h8⟩
    · obtain ⟨r', g1, g2⟩ := ih (by omega) (by
        intro i' len' t' h4 h5 h6
        have h7 := hmax i' len' t' h4 h5 h6
        rcases Nat.eq_or_lt_of_le h7 with rfl | h7
        · obtain ⟨_, ⟨rest, h8⟩, h9⟩ := h6
          rw [shape] at h8
          exact absurd h9 (not_lt.2 (h3 i' t' rest h4 (by omega) h8))
        · omega)
      exact ⟨r', by simp only [longest, h1, g1], g2⟩
    · refine ⟨some (L + 1, i, t), by simp only [longest, h1], .inr ⟨L + 1, i, t, rfl, h3, by omega, ⟨by omega, ⟨rest, by rw [shape]; exact h5⟩, h6⟩, ?_⟩⟩
      intro i' len' t' g1 g2 g3
      have g4 := hmax i' len' t' g1 g2 g3
      rcases Nat.eq_or_lt_of_le g4 with rfl | g4
      · right
        refine ⟨rfl, ?_⟩
        obtain ⟨_, ⟨rest', g5⟩, g6⟩ := g3
        rw [shape] at g5
        rcases lt_or_eq_of_le (h7 i' t' rest' g1 (by omega) g5) with g7 | g7
        · exact .inl g7
        · right
          refine ⟨g7, ?_⟩
          by_contra hlt
          exact absurd g7 (ne_of_lt (h8 i' t' rest' g1 (by omega) g5))
      · left; omega

variable {deps : τ → Except PyErr (List Dep × List (List Char))}

/-- The pieces in the order in which the recursion finds them: the chosen one, between those of the words before and after it. -/
inductive Skimmed (score : τ → S) (negInf : S) (ch : Cells τ) : Nat → Nat → List (Nat × Nat × τ) → Prop
  | nil {start} : Skimmed score negInf ch start 0 []
  | piece {start size i len t before after} : Chosen score negInf ch start size i len t →
      Skimmed score negInf ch start (i - start) before → Skimmed score negInf ch (i + len) (start + size - (i + len)) after →
      Skimmed score negInf ch start size (before ++ (i, len, t) :: after)

theorem Skimmed.tiles {start size : Nat} {segs : List (Nat × Nat × τ)} (h : Skimmed score negInf ch start size segs) :
    Tiles start segs (start + size) ∧ ∀ s ∈ segs, Usable score negInf ch s.1 s.2.1 s.2.2 := by
  induction h with
  | nil => simp [Tiles]
  | piece hc h1 h2 ih1 ih2 =>
    rename_i start size i len t before after
    obtain ⟨c1, c2, c3, _⟩ := hc
    refine ⟨tiles_append ih1.1 ?_, ?_⟩
    · refine ⟨by omega, c3.1, ?_⟩
      have := ih2.1
      rwa [show i + len + (start + size - (i + len)) = start + size from by omega] at this
    · intro s hs
      simp only [List.mem_append, List.mem_cons] at hs
      rcases hs with hs | rfl | hs
      · exact ih1.2 s hs
      · exact c3
      · exact ih2.2 s hs

theorem skim_spec (hne : ∀ i j, ch i j ≠ some []) (ds : τ → List Dep) (tags : τ → List (List Char)) : ∀ fuel start size, size ≤ fuel →
    (∀ i len t, start ≤ i → i + len ≤ start + size → Usable score negInf ch i len t → deps t = .ok (ds t, tags t)) →
    (∀ k, start ≤ k → k < start + size → ∃ t, Usable score negInf ch k 1 t) →
    ∃ segs, Skimmed score negInf ch start size segs ∧
      skim score negInf deps ch (fuel + 1) start size = .ok (segs.flatMap (fun s => ds s.2.2), segs.flatMap (fun s => tags s.2.2)) := by
  intro fuel
  induction fuel with
  | zero =>
    intro start size hs _ _
    have : size = 0 := by omega
    subst this
    exact ⟨[], .nil, by simp [skim]⟩
  | succ fuel ih =>
    intro start size hs hdeps hwords
    by_cases h0 : size = 0
    · subst h0; exact ⟨[], .nil, by simp [skim]⟩
    · obtain ⟨r, h1, h2⟩ := longest_spec (score := score) (negInf := negInf) hne start size size (le_refl _) (by intros; omega)
      rcases h2 with ⟨rfl, h2⟩ | ⟨len, i, t, rfl, hc⟩
      · obtain ⟨t, ht⟩ := hwords start (le_refl _) (by omega)
        exact absurd ht (h2 start 1 t (le_refl _) (by omega))
      · have hc' := hc
        obtain ⟨c1, c2, c3, _⟩ := hc
        have hpos := c3.1
        obtain ⟨b, g1, g2⟩ := ih start (i - start) (by omega) (fun i' l t a b c => hdeps i' l t a (by omega) c)
          (fun k a b => hwords k a (by omega))
        obtain ⟨a, g3, g4⟩ := ih (i + len) (start + size - (i + len)) (by omega) (fun i' l t a b c => hdeps i' l t (by omega) (by omega) c)
          (fun k a b => hwords k (by omega) (by omega))
        refine ⟨b ++ (i, len, t) :: a, .piece hc' g1 g3, ?_⟩
        rw [skim, if_neg h0]
        simp only [h1, g2, g4, hdeps i len t c1 c2 c3]
        simp [List.flatMap_append]

end

/-- What the cells of a chart of a sentence hold: cells are not empty, trees are made by the parser, over exactly the words of the span
(counted from one), and have a score above minus infinity; every one of the `n` words has a cell, and no further cell exists. -/
structure ChartOf {S : Type} [LinearOrder S] (negInf : S) (ch : Cells (DTree × S)) (n : Nat) : Prop where
  nonempty : ∀ i j, ch i j ≠ some []
  trees : ∀ i j ts, ch i j = some ts → i ≤ j ∧ j < n ∧ ∀ t ∈ ts, t.1.Built ∧ t.1.positions = List.range' (i + 1) (j + 1 - i) ∧ negInf < t.2
  words : ∀ k < n, (ch k k).isSome

theorem usable_tree {S : Type} [LinearOrder S] {negInf : S} {ch : Cells (DTree × S)} {n : Nat} (h : ChartOf negInf ch n) {i len : Nat}
    {t : DTree × S} (hu : Usable Prod.snd negInf ch i len t) :
    i + len ≤ n ∧ ∃ ds tags, t.1.depsAndTags = .ok (ds, tags) ∧ tags.length = len ∧
      ∀ d ∈ ds, (i + 1 ≤ d.head ∧ d.head ≤ i + len) ∧ ∃ f, d.filler = some f ∧ i + 1 ≤ f ∧ f ≤ i + len := by
  obtain ⟨h1, ⟨rest, h2⟩, h3⟩ := hu
  obtain ⟨h4, h5, h6⟩ := h.trees _ _ _ h2
  obtain ⟨h7, h8, _⟩ := h6 t (by simp)
  obtain ⟨ds, tags, e, _, ht, hd, _⟩ := DTree.C111_deps t.1 h7
  refine ⟨by omega, ds, tags, e, ?_, ?_⟩
  · have : t.1.leaves.length = len := by
      have := congrArg List.length h8
      simp only [DTree.positions, List.length_map, List.length_range'] at this
      omega
    rw [ht, List.length_map, this]
  · intro d hdd
    obtain ⟨h9, f, h10, h11⟩ := hd d hdd
    rw [h8, List.mem_range'_1] at h9 h10
    exact ⟨by omega, f, h11, by omega⟩

theorem tiles_sum {τ : Type} {a b : Nat} {segs : List (Nat × Nat × τ)} (h : Tiles a segs b) : a + (segs.map (fun s => s.2.1)).sum = b := by
  induction segs generalizing a with
  | nil => simpa [Tiles] using h
  | cons x segs ih =>
    obtain ⟨i, len, t⟩ := x
    obtain ⟨rfl, _, h2⟩ := h
    have := ih h2
    simp only [List.map_cons, List.sum_cons]
    omega

/-- **C111 (result).** The dependencies and tags of a result are those of its best tree; without one they are put together from trees that
follow each other and cover the sentence: first the best of the longest trees in the chart, then the same for the words before and after
it. There is always exactly one tag per word, heads and fillers are words of the sentence, and nothing is raised. -/
theorem C111_result {S : Type} [LinearOrder S] (negInf : S) (ch : Cells (DTree × S)) (n : Nat) (h : ChartOf negInf ch n) :
    ∃ ds tags, resultDeps Prod.snd negInf (fun t => t.1.depsAndTags) ch n = .ok (ds, tags) ∧ tags.length = n ∧
      (∀ d ∈ ds, (1 ≤ d.head ∧ d.head ≤ n) ∧ ∃ f, d.filler = some f ∧ 1 ≤ f ∧ f ≤ n) ∧
      (∀ t rest, rootTrees ch n = t :: rest → t.1.depsAndTags = .ok (ds, tags)) ∧
      (rootTrees ch n = [] → ∃ segs : List (Nat × Nat × (DTree × S)), Skimmed Prod.snd negInf ch 0 n segs ∧ Tiles 0 segs n ∧
        ∃ f : DTree × S → List Dep × List (List Char), (∀ s ∈ segs, s.2.2.1.depsAndTags = .ok (f s.2.2)) ∧
          ds = segs.flatMap (fun s => (f s.2.2).1) ∧ tags = segs.flatMap (fun s => (f s.2.2).2)) := by
  cases hr : rootTrees ch n with
  | cons t rest =>
    cases n with
    | zero => simp [rootTrees] at hr
    | succ n =>
      have hc : ch 0 n = some (t :: rest) := by
        simp only [rootTrees] at hr
        cases hc : ch 0 n with
        | none => simp [hc] at hr
        | some ts => simp [hc] at hr; rw [hr]
      have hpos := ((h.trees _ _ _ hc).2.2 t (by simp)).2.2
      obtain ⟨h1, ds, tags, e, h2, h3⟩ := usable_tree h (t := t) (i := 0) (len := n + 1) ⟨by omega, ⟨rest, by simpa using hc⟩, hpos⟩
      refine ⟨ds, tags, by simp only [resultDeps, hr, e], h2, ?_, ?_, by simp⟩
      · intro d hd
        obtain ⟨h4, f, h5, h6⟩ := h3 d hd
        exact ⟨by omega, f, h5, by omega⟩
      · intro t' rest' ht; cases ht; exact e
  | nil =>
    let f : DTree × S → List Dep × List (List Char) := fun t => match t.1.depsAndTags with
      | .ok r => r
      | .error _ => ([], [])
    have hf : ∀ i len t, Usable Prod.snd negInf ch i len t → t.1.depsAndTags = .ok ((f t).1, (f t).2) := by
      intro i len t hu
      obtain ⟨_, ds, tags, e, _⟩ := usable_tree h hu
      simp only [f, e]
    obtain ⟨segs, h1, h2⟩ := skim_spec (score := Prod.snd) (negInf := negInf) (deps := fun t : DTree × S => t.1.depsAndTags) h.nonempty
      (fun t => (f t).1) (fun t => (f t).2) n 0 n (le_refl _) (fun i len t _ _ hu => hf i len t hu) (by
        intro k _ hk
        obtain ⟨ts, hts⟩ := Option.isSome_iff_exists.1 (h.words k (by omega))
        cases ts with
        | nil => exact absurd hts (h.nonempty _ _)
        | cons t rest => exact ⟨t, by omega, ⟨rest, by simpa using hts⟩, ((h.trees _ _ _ hts).2.2 t (by simp)).2.2⟩)
    obtain ⟨h3, h4⟩ := h1.tiles
    simp only [Nat.zero_add] at h3
    refine ⟨_, _, ?_, ?_, ?_, by simp, fun _ => ⟨segs, h1, h3, f, fun s hs => hf _ _ _ (h4 s hs), rfl, rfl⟩⟩
    · have : n + 1 = n + 1 := rfl
      simp only [resultDeps, hr]
      exact h2
    · have hlen : ∀ l : List (Nat × Nat × (DTree × S)), (∀ s ∈ l, Usable Prod.snd negInf ch s.1 s.2.1 s.2.2) →
          (l.flatMap (fun s => (f s.2.2).2)).length = (l.map (fun s => s.2.1)).sum := by
        intro l hl
        induction l with
        | nil => rfl
        | cons s l ih =>
          simp only [List.flatMap_cons, List.length_append, List.map_cons, List.sum_cons]
          rw [ih (fun s hs => hl s (by simp [hs]))]
          obtain ⟨_, ds, tags, e, h5, _⟩ := usable_tree h (hl s (by simp))
          have : (f s.2.2).2 = tags := by simp only [f, e]
          rw [this, h5]
      rw [hlen segs h4]
      have := tiles_sum h3
      omega
    · intro d hd
      simp only [List.mem_flatMap] at hd
      obtain ⟨s, hs, hd⟩ := hd
      obtain ⟨g1, ds, tags, e, _, g2⟩ := usable_tree h (h4 s hs)
      have : (f s.2.2).1 = ds := by simp only [f, e]
      rw [this] at hd
      obtain ⟨g3, x, g4, g5⟩ := g2 d hd
      exact ⟨by omega, x, g4, by omega⟩

/-! ## Examples -/

namespace DTree

/-- `NP` of `Alice`, `S[dcl]\NP` of `sleeps`, `(S[X]\NP)\(S[X]\NP)` of `deeply`. -/
def demoNP : BCat := .atomic .np .none 1 none
def demoVerb : BCat := .slash '\\' (.atomic .s (.named "dcl") 1 none) (.atomic .np .none 2 (some 7)) 1 none 0
def demoAdv : BCat := .slash '\\' (.slash '\\' (.atomic .s .x 1 none) (.atomic .np .none 2 none) 1 none 0)
  (.slash '\\' (.atomic .s .x 1 none) (.atomic .np .none 2 none) 1 (some 9) 0) 3 none 0

/-- Backward application with a result category. -/
def demoBA (cat : BCat) (l r : Except PyErr DTree) : Except PyErr DTree :=
  match l, r with
  | .ok l, .ok r =>
    match unify (fun _ => [1, 2, 3]) l.root r.root false l.root.cat (r.root.cat.argument.getD demoNP) with
    | some st => .ok (combining .ba cat l r st)
    | none => .error .valueError
  | _, _ => .error .valueError

/-- `Alice sleeps` -/
def demoClause : Except PyErr DTree := demoBA (.atomic .s (.named "dcl") 1 none) (lexical demoNP "Alice" 1) (lexical demoVerb "sleeps" 2)

/-- `sleeps deeply` -/
def demoPhrase : Except PyErr DTree := demoBA demoVerb (lexical demoVerb "sleeps" 2) (lexical demoAdv "deeply" 3)

/-- The dependencies, as relation, head and filler, and the tags of a tree. -/
def demoShow (t : Except PyErr DTree) : Option (List (Rel × Nat × Option Nat) × List String) :=
  match t with
  | .error _ => none
  | .ok t =>
    match t.depsAndTags with
    | .error _ => none
    | .ok (ds, tags) => some (ds.map (fun d => (d.rel, d.head, d.filler)), tags.map String.ofList)

/-- The verb gets its subject, and the tags are those of the words. -/
example : demoShow demoClause = some ([(.slot 7, 2, some 1)], ["NP", "S[dcl]\\NP"]) := by decide +kernel

example : demoShow demoPhrase = some ([(.slot 9, 3, some 2)], ["S[dcl]\\NP", "(S\\NP)\\(S\\NP)"]) := by decide +kernel

theorem built_demoBA {cat : BCat} {l r : Except PyErr DTree} (hl : ∀ t, l = .ok t → Built t) (hr : ∀ t, r = .ok t → Built t) {t : DTree}
    (h : demoBA cat l r = .ok t) : Built t := by
  unfold demoBA at h
  split at h
  · split at h
    · cases h; exact .combining (hl _ rfl) (hr _ rfl)
    · cases h
  · cases h

/-- The hypotheses of `C111_deps` and `C111_relations` hold of a tree with dependencies. -/
example : ∃ t, demoClause = .ok t ∧ Built t ∧ t.allFilled ≠ [] := by
  have h : ∃ t, demoClause = .ok t ∧ t.allFilled.length = 1 := by
    have : (match demoClause with | .ok t => t.allFilled.length == 1 | .error _ => false) = true := by decide +kernel
    split at this
    · rename_i t ht; exact ⟨t, ht, by simpa using this⟩
    · cases this
  obtain ⟨t, h1, h2⟩ := h
  exact ⟨t, h1, built_demoBA (fun _ h => .lexical h) (fun _ h => .lexical h) h1, by intro h; simp [h] at h2⟩

/-- The hypotheses of `C111_argument` hold of `Alice sleeps`. -/
example : ∃ l r st, lexical demoNP "Alice" 1 = .ok l ∧ lexical demoVerb "sleeps" 2 = .ok r ∧
    unify (fun _ => [1, 2, 3]) l.root r.root false l.root.cat (.atomic .np .none 2 (some 7)) = some st ∧
    (⟨.slot 7, 2, 2, 0, none⟩ : Dep) ∈ r.unfilled ∧ l.root.headVar = some ⟨[1], true⟩ := by
  refine ⟨_, _, _, rfl, rfl, rfl, ?_, rfl⟩
  decide +kernel

end DTree

/-- `Alice sleeps deeply` with cells for the words and for `sleeps deeply`, but none for the sentence. -/
def demoCells : Cells (DTree × Int) := fun i j =>
  match i, j with
  | 0, 0 => ((DTree.lexical DTree.demoNP "Alice" 1).toOption.map (fun t => [(t, -1)]))
  | 1, 1 => ((DTree.lexical DTree.demoVerb "sleeps" 2).toOption.map (fun t => [(t, -2)]))
  | 2, 2 => ((DTree.lexical DTree.demoAdv "deeply" 3).toOption.map (fun t => [(t, -1)]))
  | 1, 2 => (DTree.demoPhrase.toOption.map (fun t => [(t, -3)]))
  | _, _ => none

/-- The words, and the dependencies and tags put together from `Alice` and `sleeps deeply`. -/
example : (resultWords (fun t : DTree × Int => t.1.firstWord) demoCells 4 0).toOption = some ["Alice", "sleeps", "deeply"] ∧
    ((resultDeps Prod.snd (-1000) (fun t : DTree × Int => t.1.depsAndTags) demoCells 3).toOption.map
      (fun r => (r.1.map (fun d => (d.head, d.filler)), r.2.map String.ofList))) =
    some ([(3, some 2)], ["NP", "S[dcl]\\NP", "(S\\NP)\\(S\\NP)"]) := by decide +kernel

/-- The hypothesis of `C111_result` holds of this chart. -/
example : ChartOf (-1000) demoCells 3 := by
  have hp : ∃ t, DTree.demoPhrase = .ok t ∧ t.positions = [2, 3] ∧ t.Built := by
    have : (match DTree.demoPhrase with | .ok t => t.positions == [2, 3] | .error _ => false) = true := by decide +kernel
    split at this
    · rename_i t ht
      exact ⟨t, ht, by simpa using this, DTree.built_demoBA (fun _ h => .lexical h) (fun _ h => .lexical h) ht⟩
    · cases this
  obtain ⟨p, hp1, hp2, hp3⟩ := hp
  have h1 : ∃ t, DTree.lexical DTree.demoNP "Alice" 1 = .ok t ∧ t.positions = [1] := ⟨_, rfl, rfl⟩
  have h2 : ∃ t, DTree.lexical DTree.demoVerb "sleeps" 2 = .ok t ∧ t.positions = [2] := ⟨_, rfl, rfl⟩
  have h3 : ∃ t, DTree.lexical DTree.demoAdv "deeply" 3 = .ok t ∧ t.positions = [3] := ⟨_, rfl, rfl⟩
  obtain ⟨t1, e1, g1⟩ := h1
  obtain ⟨t2, e2, g2⟩ := h2
  obtain ⟨t3, e3, g3⟩ := h3
  have cases4 : ∀ i j ts, demoCells i j = some ts → (i = 0 ∧ j = 0 ∧ ts = [(t1, -1)]) ∨ (i = 1 ∧ j = 1 ∧ ts = [(t2, -2)]) ∨
      (i = 2 ∧ j = 2 ∧ ts = [(t3, -1)]) ∨ (i = 1 ∧ j = 2 ∧ ts = [(p, -3)]) := by
    intro i j ts h
    unfold demoCells at h
    split at h
    · rw [e1] at h; simp [Except.toOption] at h; simp [h]
    · rw [e2] at h; simp [Except.toOption] at h; simp [h]
    · rw [e3] at h; simp [Except.toOption] at h; simp [h]
    · rw [hp1] at h; simp [Except.toOption] at h; simp [h]
    · cases h
  refine ⟨?_, ?_, ?_⟩
  · intro i j h
    rcases cases4 i j [] h with ⟨_, _, h⟩ | ⟨_, _, h⟩ | ⟨_, _, h⟩ | ⟨_, _, h⟩ <;> simp at h
  · intro i j ts h
    rcases cases4 i j ts h with ⟨rfl, rfl, rfl⟩ | ⟨rfl, rfl, rfl⟩ | ⟨rfl, rfl, rfl⟩ | ⟨rfl, rfl, rfl⟩ <;>
      refine ⟨by omega, by omega, ?_⟩ <;> intro t ht <;> simp only [List.mem_singleton] at ht <;> subst ht
    · exact ⟨.lexical e1, g1, by norm_num⟩
    · exact ⟨.lexical e2, g2, by norm_num⟩
    · exact ⟨.lexical e3, g3, by norm_num⟩
    · exact ⟨hp3, hp2, by norm_num⟩
  · intro k hk
    match k, hk with
    | 0, _ => rfl
    | 1, _ => rfl
    | 2, _ => rfl

/-- **C111 (refuted).** A tree with a score of minus infinity is never taken: if the best tree of a word has it and nothing else covers the
word, asking for the dependencies of the result raises TypeError. -/
theorem C111_refuted_score : ∃ ch : Cells (DTree × Int), (∀ k < 2, (ch k k).isSome) ∧
    (resultWords (fun t : DTree × Int => t.1.firstWord) ch 3 0).toOption = some ["Alice", "sleeps"] ∧
    (match resultDeps Prod.snd (-1000) (fun t : DTree × Int => t.1.depsAndTags) ch 2 with | .error .typeError => true | _ => false) = true := by
  refine ⟨fun i j => if i = 0 ∧ j = 0 then (DTree.lexical DTree.demoNP "Alice" 1).toOption.map (fun t => [(t, -1000)])
    else if i = 1 ∧ j = 1 then (DTree.lexical DTree.demoVerb "sleeps" 2).toOption.map (fun t => [(t, -2)]) else none, ?_, ?_, ?_⟩
  · intro k hk
    match k, hk with
    | 0, _ => rfl
    | 1, _ => rfl
  · decide +kernel
  · decide +kernel

/-- **C111 (refuted).** With a word without a tree, the result has the words before it only. -/
theorem C111_refuted_words : ∃ (ch : Cells (DTree × Int)), (ch 0 0).isSome ∧ ch 1 1 = none ∧ (ch 2 2).isSome ∧
    (resultWords (fun t : DTree × Int => t.1.firstWord) ch 4 0).toOption = some ["Alice"] ∧ (rootTrees ch 1).length = 1 ∧
    ((resultDeps Prod.snd (-1000) (fun t : DTree × Int => t.1.depsAndTags) ch 1).toOption.map (fun r => r.2.length)) = some 1 := by
  refine ⟨fun i j => if i = 1 then none else demoCells i j, by rfl, rfl, by rfl, ?_, ?_, ?_⟩ <;> decide +kernel

end Bobcat
end Lambeq
