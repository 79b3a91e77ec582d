import Verif.Text.PregroupTreeBfs
import Verif.Text.PregroupTreeCups

/-!
# Pregroup trees: the wires under the words
-/

namespace Lambeq
namespace PTree
set_option linter.unusedSimpArgs false

/-- A wire under the words: the number of the word, the word it should be connected to (-1 for none), and its number among the wires for that word. -/
abbrev Tag := Nat × Int × Nat

/-- the wires of one component -/
def tagC (i : Nat) (e : Comp) : List Tag := (List.range e.2.length).map (fun j => (i, e.1, j))

/-- the wires of one word -/
def tagsW (i : Nat) (w : List Comp) : List Tag := w.flatMap (tagC i)

/-- the wires of all words, from left to right -/
def tags : Nat → List (List Comp) → List Tag
  | _, [] => []
  | i, w :: ws => tagsW i w ++ tags (i + 1) ws

/-- all types, from left to right -/
def tyAll (W : List (List Comp)) : Ty := (W.map compsTy).flatten

theorem length_tagsW (i : Nat) (w : List Comp) : (tagsW i w).length = (compsTy w).length := by
  induction w with
  | nil => rfl
  | cons e w ih =>
    simp only [tagsW, compsTy, List.flatMap_cons, List.length_append, List.map_cons, List.flatten_cons] at *
    rw [ih]; simp [tagC]

theorem length_tags (n : Nat) (W : List (List Comp)) : (tags n W).length = (tyAll W).length := by
  induction W generalizing n with
  | nil => rfl
  | cons w W ih =>
    simp only [tags, tyAll, List.length_append, List.map_cons, List.flatten_cons, length_tagsW] at *
    rw [ih]

theorem tagC_get (i : Nat) (e : Comp) (x : Nat) (s : Tag) : (tagC i e)[x]? = some s ↔ x < e.2.length ∧ s = (i, e.1, x) := by
  simp only [tagC, List.getElem?_map, Option.map_eq_some_iff, List.getElem?_eq_some_iff, List.length_range, List.getElem_range]
  constructor
  · rintro ⟨a, ⟨h, rfl⟩, rfl⟩; exact ⟨h, rfl⟩
  · rintro ⟨h, rfl⟩; exact ⟨x, ⟨h, rfl⟩, rfl⟩

/-- A wire belongs to a component and has the type it has there. -/
theorem tagsW_get {i : Nat} {w : List Comp} {x : Nat} {s : Tag} (h : (tagsW i w)[x]? = some s) :
    s.1 = i ∧ ∃ t, (s.2.1, t) ∈ w ∧ s.2.2 < t.length ∧ (compsTy w)[x]? = t[s.2.2]? := by
  induction w generalizing x with
  | nil => simp [tagsW] at h
  | cons e w ih =>
    have hl : (tagC i e).length = e.2.length := by simp [tagC]
    simp only [tagsW, List.flatMap_cons, List.getElem?_append, hl] at h
    simp only [compsTy, List.map_cons, List.flatten_cons, List.getElem?_append]
    split at h
    · obtain ⟨h1, rfl⟩ := (tagC_get ..).1 h
      refine ⟨rfl, e.2, by simp, h1, by simp [h1]⟩
    · rename_i hx
      obtain ⟨h1, t, h2, h3, h4⟩ := ih (x := x - e.2.length) h
      refine ⟨h1, t, by simp [h2], h3, ?_⟩
      rw [if_neg hx]; exact h4

theorem tags_get {n : Nat} {W : List (List Comp)} {x : Nat} {s : Tag} (h : (tags n W)[x]? = some s) :
    n ≤ s.1 ∧ ∃ w t, W[s.1 - n]? = some w ∧ (s.2.1, t) ∈ w ∧ s.2.2 < t.length ∧ (tyAll W)[x]? = t[s.2.2]? := by
  induction W generalizing n x with
  | nil => simp [tags] at h
  | cons v W ih =>
    simp only [tags, List.getElem?_append, length_tagsW] at h
    simp only [tyAll, List.map_cons, List.flatten_cons, List.getElem?_append]
    split at h
    · rename_i hx
      obtain ⟨h1, t, h2, h3, h4⟩ := tagsW_get h
      refine ⟨by omega, v, t, by simp [h1], h2, h3, ?_⟩
      rw [if_pos hx, h4]
    · rename_i hx
      obtain ⟨h0, w, t, h1, h2, h3, h4⟩ := ih h
      refine ⟨by omega, w, t, ?_, h2, h3, ?_⟩
      · rw [show s.1 - n = s.1 - (n + 1) + 1 by omega]; simpa using h1
      · rw [if_neg hx]; exact h4

/-- the order of the wires -/
def Before (n : Nat) (W : List (List Comp)) (s s' : Tag) : Prop :=
  s.1 < s'.1 ∨ s.1 = s'.1 ∧ ((∃ w, W[s.1 - n]? = some w ∧ [s.2.1, s'.2.1].Sublist (w.map (·.1))) ∨ s.2.1 = s'.2.1 ∧ s.2.2 < s'.2.2)

theorem tagsW_pairwise (i : Nat) (w : List Comp) :
    (tagsW i w).Pairwise (fun s s' => [s.2.1, s'.2.1].Sublist (w.map (·.1)) ∨ s.2.1 = s'.2.1 ∧ s.2.2 < s'.2.2) := by
  induction w with
  | nil => simp [tagsW]
  | cons e w ih =>
    simp only [tagsW, List.flatMap_cons, List.pairwise_append]
    refine ⟨?_, ?_, ?_⟩
    · simp only [tagC, List.pairwise_map]
      exact List.pairwise_lt_range.imp (fun h => .inr ⟨trivial, h⟩)
    · refine ih.imp ?_
      rintro a b (h | h)
      · exact .inl (h.cons _)
      · exact .inr h
    · intro a ha b hb
      left
      obtain ⟨j, _, rfl⟩ := List.mem_map.1 ha
      obtain ⟨f, hf, hb⟩ := List.mem_flatMap.1 hb
      obtain ⟨k, _, rfl⟩ := List.mem_map.1 hb
      simp only [List.map_cons]
      refine List.Sublist.cons_cons _ ?_
      rw [List.singleton_sublist]
      exact List.mem_map_of_mem hf

theorem tags_pairwise (n : Nat) (W : List (List Comp)) : (tags n W).Pairwise (Before n W) := by
  induction W generalizing n with
  | nil => simp [tags]
  | cons v W ih =>
    simp only [tags, List.pairwise_append]
    refine ⟨?_, ?_, ?_⟩
    · rw [List.pairwise_iff_getElem]
      intro a b ha hb hab
      have h := List.pairwise_iff_getElem.1 (tagsW_pairwise n v) a b ha hb hab
      have e1 := (tagsW_get (List.getElem?_eq_getElem ha)).1
      have e2 := (tagsW_get (List.getElem?_eq_getElem hb)).1
      right
      refine ⟨by rw [e1, e2], ?_⟩
      rcases h with h | h
      · left; exact ⟨v, by simp [e1], h⟩
      · exact .inr h
    · rw [List.pairwise_iff_getElem]
      intro a b ha hb hab
      have h := List.pairwise_iff_getElem.1 (ih (n + 1)) a b ha hb hab
      have e1 := (tags_get (List.getElem?_eq_getElem ha)).1
      rcases h with h | ⟨h1, h2⟩
      · exact .inl h
      · refine .inr ⟨h1, ?_⟩
        rcases h2 with ⟨w, h2, h3⟩ | h2
        · left
          refine ⟨w, ?_, h3⟩
          rw [show (tags (n + 1) W)[a].1 - n = (tags (n + 1) W)[a].1 - (n + 1) + 1 by omega]
          simpa using h2
        · exact .inr h2
    · intro a ha b hb
      left
      obtain ⟨x, hx, rfl⟩ := List.mem_iff_getElem.1 ha
      obtain ⟨y, hy, rfl⟩ := List.mem_iff_getElem.1 hb
      have e1 := (tagsW_get (List.getElem?_eq_getElem hx)).1
      have e2 := (tags_get (List.getElem?_eq_getElem hy)).1
      omega

theorem before_of_lt {n : Nat} {W : List (List Comp)} {x y : Nat} {s s' : Tag} (hx : (tags n W)[x]? = some s) (hy : (tags n W)[y]? = some s') (h : x < y) :
    Before n W s s' := by
  obtain ⟨a, rfl⟩ := List.getElem?_eq_some_iff.1 hx
  obtain ⟨b, rfl⟩ := List.getElem?_eq_some_iff.1 hy
  exact List.pairwise_iff_getElem.1 (tags_pairwise n W) x y a b h

theorem nodup_antisymm {l : List Int} (h : l.Nodup) {a b : Int} (h1 : [a, b].Sublist l) (h2 : [b, a].Sublist l) : False := by
  induction l with
  | nil => simp at h1
  | cons c l ih =>
    obtain ⟨hc, hl⟩ := List.nodup_cons.1 h
    have hm : ∀ {x y : Int}, [x, y].Sublist l → x ∈ l ∧ y ∈ l := fun h => ⟨h.subset (by simp), h.subset (by simp)⟩
    rcases List.sublist_cons_iff.1 h1 with k1 | ⟨r, e1, k1⟩ <;> rcases List.sublist_cons_iff.1 h2 with k2 | ⟨r', e2, k2⟩
    · exact ih hl k1 k2
    · simp only [List.cons.injEq] at e2
      obtain ⟨rfl, rfl⟩ := e2
      exact hc (hm k1).2
    · simp only [List.cons.injEq] at e1
      obtain ⟨rfl, rfl⟩ := e1
      exact hc (hm k2).2
    · simp only [List.cons.injEq] at e1 e2
      obtain ⟨rfl, rfl⟩ := e1
      obtain ⟨rfl, rfl⟩ := e2
      exact hc (k1.subset (by simp))

theorem nodup_irrefl {l : List Int} (h : l.Nodup) {a : Int} (h1 : [a, a].Sublist l) : False := by
  have := h.sublist h1
  simp at this

theorem Before.asymm {n : Nat} {W : List (List Comp)} (hn : ∀ w ∈ W, (w.map (·.1)).Nodup) {s s' : Tag} (h : Before n W s s') (h' : Before n W s' s) : False := by
  rcases h with h | ⟨e, h⟩ <;> rcases h' with h' | ⟨e', h'⟩
  · omega
  · omega
  · omega
  · rcases h with ⟨w, hw, h⟩ | h <;> rcases h' with ⟨w', hw', h'⟩ | h'
    · rw [← e, hw] at hw'
      cases hw'
      exact nodup_antisymm (hn w (List.mem_of_getElem? hw)) h h'
    · rw [h'.1] at h
      exact nodup_irrefl (hn w (List.mem_of_getElem? hw)) h
    · rw [h.1] at h'
      exact nodup_irrefl (hn w' (List.mem_of_getElem? hw')) h'
    · omega

theorem lt_of_before {n : Nat} {W : List (List Comp)} (hn : ∀ w ∈ W, (w.map (·.1)).Nodup) {x y : Nat} {s s' : Tag} (hx : (tags n W)[x]? = some s)
    (hy : (tags n W)[y]? = some s') (h : Before n W s s') : x < y := by
  rcases Nat.lt_trichotomy x y with h' | rfl | h'
  · exact h'
  · rw [hx] at hy
    cases hy
    exact (h.asymm hn h).elim
  · exact (h.asymm hn (before_of_lt hy hx h')).elim

/-- no two wires have the same description -/
theorem tag_inj {n : Nat} {W : List (List Comp)} (hn : ∀ w ∈ W, (w.map (·.1)).Nodup) {x y : Nat} {s : Tag} (hx : (tags n W)[x]? = some s)
    (hy : (tags n W)[y]? = some s) : x = y := by
  rcases Nat.lt_trichotomy x y with h' | rfl | h'
  · exact ((before_of_lt hx hy h').asymm hn (before_of_lt hx hy h')).elim
  · rfl
  · exact ((before_of_lt hy hx h').asymm hn (before_of_lt hy hx h')).elim

/-! ## The dictionaries -/

theorem compDict_keys (g : Nat) (w : List Comp) : (compDict g w).map (·.1) = w.map (·.1) := by
  induction w generalizing g with
  | nil => rfl
  | cons e w ih => obtain ⟨o, t⟩ := e; simp [compDict, ih]

theorem compDict_mem {i g : Nat} {w : List Comp} {o : Int} {L : List Nat} (h : (o, L) ∈ compDict g w) :
    ∃ t c, (o, t) ∈ w ∧ L = List.range' (g + c) t.length ∧ ∀ j, j < t.length → (tagsW i w)[c + j]? = some (i, o, j) := by
  induction w generalizing g with
  | nil => simp [compDict] at h
  | cons e w ih =>
    obtain ⟨o', t'⟩ := e
    have hl : (tagC i (o', t')).length = t'.length := by simp [tagC]
    simp only [compDict, List.mem_cons, Prod.mk.injEq] at h
    rcases h with ⟨rfl, rfl⟩ | h
    · refine ⟨t', 0, by simp, rfl, ?_⟩
      intro j hj
      simp only [tagsW, List.flatMap_cons, List.getElem?_append, hl, Nat.zero_add, hj, if_true]
      exact (tagC_get ..).2 ⟨hj, rfl⟩
    · obtain ⟨t, c, h1, h2, h3⟩ := ih h
      refine ⟨t, t'.length + c, by simp [h1], by rw [h2, Nat.add_assoc], ?_⟩
      intro j hj
      simp only [tagsW, List.flatMap_cons, List.getElem?_append, hl]
      rw [if_neg (by omega), show t'.length + c + j - t'.length = c + j by omega]
      exact h3 j hj

theorem compDicts_length (g : Nat) (W : List (List Comp)) : (compDicts g W).length = W.length := by
  induction W generalizing g with
  | nil => rfl
  | cons w W ih => simp [compDicts, ih]

theorem compDicts_get {n g : Nat} {W : List (List Comp)} {i : Nat} {d : CDict} (h : (compDicts g W)[i]? = some d) :
    ∃ w, W[i]? = some w ∧ d.map (·.1) = w.map (·.1) ∧
      ∀ o L, (o, L) ∈ d → ∃ t c, (o, t) ∈ w ∧ L = List.range' (g + c) t.length ∧ ∀ j, j < t.length → (tags n W)[c + j]? = some (n + i, o, j) := by
  induction W generalizing n g i with
  | nil => simp [compDicts] at h
  | cons v W ih =>
    cases i with
    | zero =>
      simp only [compDicts, List.getElem?_cons_zero, Option.some.injEq] at h
      subst h
      refine ⟨v, by simp, compDict_keys .., ?_⟩
      intro o L hL
      obtain ⟨t, c, h1, h2, h3⟩ := compDict_mem (i := n) hL
      refine ⟨t, c, h1, h2, ?_⟩
      intro j hj
      have := h3 j hj
      have hlt : c + j < (tagsW n v).length := (List.getElem?_eq_some_iff.1 this).1
      simp only [tags, List.getElem?_append, hlt, if_true, Nat.add_zero]
      exact this
    | succ i =>
      simp only [compDicts, List.getElem?_cons_succ] at h
      obtain ⟨w, h1, h2, h3⟩ := ih (n := n + 1) h
      refine ⟨w, by simpa using h1, h2, ?_⟩
      intro o L hL
      obtain ⟨t, c, k1, k2, k3⟩ := h3 o L hL
      refine ⟨t, (compsTy v).length + c, k1, by rw [k2, Nat.add_assoc], ?_⟩
      intro j hj
      simp only [tags, List.getElem?_append, length_tagsW]
      rw [if_neg (by omega), show (compsTy v).length + c + j - (compsTy v).length = c + j by omega, k3 j hj]
      simp; omega

theorem lookup_mem {d : CDict} {o : Int} {L : List Nat} (h : d.lookup o = some L) : (o, L) ∈ d := by
  induction d with
  | nil => simp at h
  | cons e d ih =>
    obtain ⟨o', L'⟩ := e
    rw [List.lookup_cons] at h
    by_cases hc : o = o'
    · subst hc; simp at h; simp [h]
    · have : (o == o') = false := by simpa using hc
      rw [this] at h
      exact List.mem_cons_of_mem _ (ih h)

theorem lookup_exists {d : CDict} {o : Int} (h : o ∈ d.map (·.1)) : ∃ L, d.lookup o = some L := by
  induction d with
  | nil => simp at h
  | cons e d ih =>
    obtain ⟨o', L'⟩ := e
    rw [List.lookup_cons]
    by_cases hc : o = o'
    · subst hc; simp
    · have : (o == o') = false := by simpa using hc
      rw [this]
      simp only [List.map_cons, List.mem_cons] at h
      exact ih (h.resolve_left hc)

/-- `word_components_dicts[i][o]` are the wires of word `i` for `o`. -/
theorem dictGet_spec {W : List (List Comp)} {i o : Nat} {w : List Comp} (hw : W[i]? = some w) (ho : (o : Int) ∈ w.map (·.1)) :
    ∃ t c, dictGet (compDicts 0 W) i o = .ok (List.range' c t.length) ∧ ((o : Int), t) ∈ w ∧ ∀ j, j < t.length → (tags 0 W)[c + j]? = some (i, (o : Int), j) := by
  have hlt : i < (compDicts 0 W).length := by rw [compDicts_length]; exact (List.getElem?_eq_some_iff.1 hw).1
  obtain ⟨w', h1, h2, h3⟩ := compDicts_get (n := 0) (List.getElem?_eq_getElem hlt)
  rw [hw] at h1
  cases h1
  obtain ⟨L, hL⟩ := lookup_exists (d := (compDicts 0 W)[i].reverse) (o := (o : Int)) (by rw [List.map_reverse, List.mem_reverse, h2]; exact ho)
  have hm := lookup_mem hL
  rw [List.mem_reverse] at hm
  obtain ⟨t, c, k1, k2, k3⟩ := h3 _ _ hm
  refine ⟨t, c, ?_, k1, ?_⟩
  · simp only [dictGet, List.getElem?_eq_getElem hlt, hL]
    rw [k2, Nat.zero_add]
  · simpa using k3

end PTree
end Lambeq
