import Verif.Bobcat.Cell
import Mathlib.Data.List.Sort
import Mathlib.Algebra.Order.Ring.Rat
import Mathlib.Tactic.Linarith
import Mathlib.Tactic.Push

/-!
# C46: the cells of the parse chart
-/

namespace Lambeq
namespace Bobcat
set_option linter.unusedSimpArgs false
set_option linter.unusedVariables false
set_option linter.unusedSectionVars false

variable {ι κ S : Type} [DecidableEq ι] [DecidableEq κ] [LinearOrder S]

/-! ## Specification -/

/-- Best first. -/
def Ranked (l : List (PTree ι κ S)) : Prop := l.Pairwise (fun t u => u.score ≤ t.score)

/-- What a cell with beam `b` should hold after the trees `offered` have been offered, in any number of calls:
ranked trees, of different categories, each of them offered and as good as every tree of its category that was offered; the map and the
list agree; and whenever no tree of the category of an offered tree is held, the cell holds `b` trees that are strictly better than it. -/
structure Holds (b : Nat) (c : Cell ι κ S) (offered : List (PTree ι κ S)) : Prop where
  ranked : Ranked c.trees
  distinct : c.trees.Pairwise (fun t u => t.cat ≠ u.cat)
  map : ∀ k t, c.treesMap k = some t ↔ t ∈ c.trees ∧ t.cat = k
  best : ∀ t ∈ c.trees, t ∈ offered ∧ ∀ u ∈ offered, u.cat = t.cat → u.score ≤ t.score
  covered : ∀ u ∈ offered, (∃ t ∈ c.trees, t.cat = u.cat) ∨ (b ≤ c.trees.length ∧ ∀ t ∈ c.trees, u.score < t.score)
  beam : ∀ t ∈ c.trees, ∀ u ∈ c.trees.drop (b - 1), u.score ≤ t.score
  minScore : c.minScore = (c.trees[b - 1]?).map PTree.score

/-! ## find -/

theorem ranked_get {l : List (PTree ι κ S)} (h : Ranked l) {i j : Nat} {t u : PTree ι κ S} (hij : i ≤ j) (ht : l[i]? = some t) (hu : l[j]? = some u) :
    u.score ≤ t.score := by
  obtain ⟨hi, rfl⟩ := List.getElem?_eq_some_iff.1 ht
  obtain ⟨hj, rfl⟩ := List.getElem?_eq_some_iff.1 hu
  rcases Nat.lt_or_eq_of_le hij with h' | rfl
  · exact List.pairwise_iff_getElem.1 h i j hi hj h'
  · exact le_refl _

theorem findGo_spec (l : List (PTree ι κ S)) (h : Ranked l) (s : S) (fuel lo hi : Nat) (hfuel : hi - lo ≤ fuel) (hlh : lo ≤ hi) (hhi : hi ≤ l.length)
    (h1 : ∀ i < lo, ∀ t, l[i]? = some t → s < t.score) (h2 : ∀ i, hi ≤ i → ∀ t, l[i]? = some t → t.score < s) :
    findGo l s fuel lo hi ≤ l.length ∧
    ((∃ t, l[findGo l s fuel lo hi]? = some t ∧ t.score = s) ∨
     ((∀ i < findGo l s fuel lo hi, ∀ t, l[i]? = some t → s < t.score) ∧ ∀ i, findGo l s fuel lo hi ≤ i → ∀ t, l[i]? = some t → t.score < s)) := by
  induction fuel generalizing lo hi with
  | zero =>
    have : lo = hi := by omega
    subst this
    exact ⟨hhi, .inr ⟨h1, h2⟩⟩
  | succ n ih =>
    simp only [findGo]
    by_cases hlt : lo < hi
    · simp only [hlt, if_true]
      have hm : (lo + hi) / 2 < l.length := by omega
      rw [List.getElem?_eq_getElem hm]
      simp only
      by_cases he : s = (l[(lo + hi) / 2]).score
      · simp only [if_pos he]
        exact ⟨hm.le, .inl ⟨_, List.getElem?_eq_getElem hm, he.symm⟩⟩
      · simp only [if_neg he]
        by_cases hs : (l[(lo + hi) / 2]).score < s
        · simp only [if_pos hs]
          refine ih lo ((lo + hi) / 2) (by omega) (by omega) (by omega) h1 ?_
          intro i hi' t ht
          exact lt_of_le_of_lt (ranked_get h hi' (List.getElem?_eq_getElem hm) ht) hs
        · simp only [if_neg hs]
          have hs' : s < (l[(lo + hi) / 2]).score := lt_of_le_of_ne (not_lt.1 hs) he
          refine ih ((lo + hi) / 2 + 1) hi (by omega) (by omega) hhi ?_ h2
          intro i hi' t ht
          exact lt_of_lt_of_le hs' (ranked_get h (by omega) ht (List.getElem?_eq_getElem hm))
    · simp only [hlt, if_false]
      have : lo = hi := by omega
      subst this
      exact ⟨hhi, .inr ⟨h1, h2⟩⟩

/-- **C46 (find).** On ranked trees, the index found is an insertion point: the trees before it are at least as good, the trees from it on
at most as good as the score; and if some tree has the score, the tree at the index has it. -/
theorem C46_find (l : List (PTree ι κ S)) (h : Ranked l) (s : S) :
    find l s ≤ l.length ∧ (∀ t ∈ l.take (find l s), s ≤ t.score) ∧ (∀ t ∈ l.drop (find l s), t.score ≤ s) ∧
    ((∃ t ∈ l, t.score = s) → ∃ t, l[find l s]? = some t ∧ t.score = s) := by
  obtain ⟨h0, h1⟩ := findGo_spec l h s l.length 0 l.length (by omega) (by omega) (le_refl _) (by simp) (by
    intro i hi t ht; rw [List.getElem?_eq_none hi] at ht; cases ht)
  refine ⟨h0, ?_, ?_, ?_⟩
  · intro t ht
    obtain ⟨i, hi, rfl⟩ := List.mem_iff_getElem.1 ht
    simp only [List.length_take, lt_inf_iff] at hi
    simp only [List.getElem_take]
    have hti : l[i]? = some l[i] := List.getElem?_eq_getElem hi.2
    rcases h1 with ⟨u, hu, rfl⟩ | ⟨h1, _⟩
    · exact ranked_get h hi.1.le hti hu
    · exact (h1 i hi.1 _ hti).le
  · intro t ht
    obtain ⟨i, hi, rfl⟩ := List.mem_iff_getElem.1 ht
    simp only [List.length_drop] at hi
    simp only [List.getElem_drop]
    have hti : l[find l s + i]? = some l[find l s + i] := List.getElem?_eq_getElem (by omega)
    rcases h1 with ⟨u, hu, rfl⟩ | ⟨_, h1⟩
    · exact ranked_get h (by exact Nat.le_add_right _ _) hu hti
    · exact (h1 _ (Nat.le_add_right _ _) _ hti).le
  · rintro ⟨t, ht, hts⟩
    rcases h1 with h1 | ⟨h1, h2⟩
    · exact h1
    · obtain ⟨i, hi, rfl⟩ := List.mem_iff_getElem.1 ht
      have hti : l[i]? = some l[i] := List.getElem?_eq_getElem hi
      rcases Nat.lt_or_ge i (find l s) with h' | h'
      · exact absurd hts.symm (ne_of_lt (h1 i h' _ hti))
      · exact absurd hts (ne_of_lt (h2 i h' _ hti))

theorem insertIdx_eq (l : List (PTree ι κ S)) (k : Nat) (hk : k ≤ l.length) (t : PTree ι κ S) : l.insertIdx k t = l.take k ++ t :: l.drop k := by
  induction l generalizing k with
  | nil => simp at hk; subst hk; rfl
  | cons a l ih =>
    cases k with
    | zero => rfl
    | succ k => simp [List.insertIdx_succ_cons, ih k (by simpa using hk)]

/-- Inserting at the index found keeps the order. -/
theorem insert_ranked (l : List (PTree ι κ S)) (h : Ranked l) (t : PTree ι κ S) : Ranked (l.insertIdx (find l t.score) t) := by
  obtain ⟨h0, h1, h2, _⟩ := C46_find l h t.score
  rw [insertIdx_eq l _ h0]
  have hl : Ranked (l.take (find l t.score) ++ l.drop (find l t.score)) := by rw [List.take_append_drop]; exact h
  obtain ⟨p1, p2, p3⟩ := List.pairwise_append.1 hl
  refine List.pairwise_append.2 ⟨p1, List.pairwise_cons.2 ⟨h2, p2⟩, ?_⟩
  intro a ha u hu
  rcases List.mem_cons.1 hu with rfl | hu
  · exact h1 a ha
  · exact p3 a ha u hu

/-! ## Deleting the old tree -/

theorem scanForward_some {old : PTree ι κ S} {l : List (PTree ι κ S)} {i j : Nat} (h : scanForward old l i = some j) :
    i ≤ j ∧ l[j - i]? = some old := by
  induction l generalizing i with
  | nil => cases h
  | cons t ts ih =>
    simp only [scanForward] at h
    split at h
    · rename_i ht
      cases h; subst ht
      exact ⟨le_refl _, by simp⟩
    · split at h
      · cases h
      · obtain ⟨h1, h2⟩ := ih h
        refine ⟨by omega, ?_⟩
        have : j - i = (j - (i + 1)) + 1 := by omega
        rw [this]; simpa using h2

theorem scanForward_none {old : PTree ι κ S} {l : List (PTree ι κ S)} {i : Nat} (hr : Ranked l) (hle : ∀ t ∈ l, t.score ≤ old.score)
    (h : scanForward old l i = none) : old ∉ l := by
  induction l generalizing i with
  | nil => simp
  | cons t ts ih =>
    simp only [scanForward] at h
    split at h
    · cases h
    · rename_i hne
      have hr' := List.pairwise_cons.1 hr
      split at h
      · rename_i hs
        intro hmem
        rcases List.mem_cons.1 hmem with rfl | hmem
        · exact hne rfl
        · exact hs (le_antisymm (hle t (by simp)) (hr'.1 old hmem))
      · intro hmem
        rcases List.mem_cons.1 hmem with rfl | hmem
        · exact hne rfl
        · exact ih hr'.2 (fun u hu => hle u (by simp [hu])) h hmem

theorem eraseIdx_nodup {l : List (PTree ι κ S)} (hn : l.Nodup) {j : Nat} {t : PTree ι κ S} (h : l[j]? = some t) : l.eraseIdx j = l.erase t := by
  induction l generalizing j with
  | nil => simp at h
  | cons a l ih =>
    cases j with
    | zero => simp at h; subst h; simp
    | succ j =>
      simp only [List.getElem?_cons_succ] at h
      have hne : a ≠ t := by
        rintro rfl
        exact (List.nodup_cons.1 hn).1 (List.mem_of_getElem? h)
      simp only [List.eraseIdx_cons_succ]
      rw [List.erase_cons_tail (by simpa using hne), ih (List.nodup_cons.1 hn).2 h]

/-- The loops of lines 136-147 delete exactly the old tree. -/
theorem deleteTree_spec (l : List (PTree ι κ S)) (hr : Ranked l) (hn : l.Nodup) (old : PTree ι κ S) (hold : old ∈ l) : deleteTree l old = l.erase old := by
  obtain ⟨h0, h1, h2, h3⟩ := C46_find l hr old.score
  unfold deleteTree
  simp only
  cases hf : scanForward old (l.drop (find l old.score)) (find l old.score) with
  | some j =>
    obtain ⟨hj, hg⟩ := scanForward_some hf
    rw [List.getElem?_drop, show find l old.score + (j - find l old.score) = j by omega] at hg
    exact eraseIdx_nodup hn hg
  | none =>
    have hnd := scanForward_none (List.Pairwise.drop hr) h2 hf
    have hin : old ∈ l.take (find l old.score) := by
      have : old ∈ l.take (find l old.score) ++ l.drop (find l old.score) := by rw [List.take_append_drop]; exact hold
      rcases List.mem_append.1 this with h | h
      · exact h
      · exact absurd h hnd
    cases hb : scanBackward l old (find l old.score) with
    | some j =>
      unfold scanBackward at hb
      have := List.find?_some hb
      simp only [decide_eq_true_eq] at this
      exact eraseIdx_nodup hn this
    | none =>
      exfalso
      unfold scanBackward at hb
      rw [List.find?_eq_none] at hb
      obtain ⟨i, hi, he⟩ := List.mem_iff_getElem.1 hin
      simp only [List.length_take, lt_inf_iff] at hi
      simp only [List.getElem_take] at he
      have := hb i (by simp [hi.1])
      simp only [decide_eq_true_eq] at this
      exact this (by rw [List.getElem?_eq_getElem hi.2, he])

/-! ## Counting -/

/-- In a ranked list, the `b`-th tree is at least `x` iff `b` trees are. -/
theorem nth_iff_count {l : List (PTree ι κ S)} (hr : Ranked l) {b : Nat} (hb : 0 < b) (x : S) :
    (∃ u, l[b - 1]? = some u ∧ x ≤ u.score) ↔ b ≤ l.countP (fun t => decide (x ≤ t.score)) := by
  induction l generalizing b with
  | nil => simp; omega
  | cons t ts ih =>
    have hr' := List.pairwise_cons.1 hr
    rw [List.countP_cons]
    by_cases hx : x ≤ t.score
    · simp only [hx, decide_true, if_true]
      rcases Nat.lt_or_ge 1 b with h1 | h1
      · have := ih hr'.2 (b := b - 1) (by omega)
        rw [show b - 1 = (b - 1 - 1) + 1 by omega, List.getElem?_cons_succ, this]
        omega
      · have : b = 1 := by omega
        subst this
        simp [hx]
    · simp only [hx, decide_false, Bool.false_eq_true, if_false, Nat.add_zero]
      have hc : ts.countP (fun t => decide (x ≤ t.score)) = 0 := by
        rw [List.countP_eq_zero]
        intro u hu
        simp only [decide_eq_true_eq]
        exact fun h => hx (h.trans (hr'.1 u hu))
      rw [hc]
      constructor
      · rintro ⟨u, hu, hxu⟩
        exfalso
        have := ranked_get hr (Nat.zero_le _) (by simp : (t :: ts)[0]? = some t) hu
        exact hx (hxu.trans this)
      · omega

theorem drop_le_iff {l : List (PTree ι κ S)} (hr : Ranked l) (b : Nat) (hb : 0 < b) :
    (∀ t ∈ l, ∀ u ∈ l.drop (b - 1), u.score ≤ t.score) ↔ ∀ u, l[b - 1]? = some u → ∀ t ∈ l, u.score ≤ t.score := by
  constructor
  · intro h u hu t ht
    refine h t ht u ?_
    obtain ⟨hlt, rfl⟩ := List.getElem?_eq_some_iff.1 hu
    exact List.mem_iff_getElem.2 ⟨0, by simp; omega, by simp⟩
  · intro h t ht u hu
    obtain ⟨i, hi, rfl⟩ := List.mem_iff_getElem.1 hu
    simp only [List.length_drop] at hi
    have h1 : l[b - 1]? = some l[b - 1] := List.getElem?_eq_getElem (by omega)
    refine le_trans ?_ (h _ h1 t ht)
    simp only [List.getElem_drop]
    exact ranked_get hr (Nat.le_add_right _ _) h1 (List.getElem?_eq_getElem (by omega))

/-! ## One tree -/

theorem unmap_spec (l : List (PTree ι κ S)) (m : κ → Option (PTree ι κ S)) (hd : l.Pairwise (fun t u => t.cat ≠ u.cat)) (hm : ∀ t ∈ l, (m t.cat).isSome) :
    unmap l m = .ok (fun k => if k ∈ l.map PTree.cat then none else m k) := by
  induction l generalizing m with
  | nil => simp [unmap]
  | cons t ts ih =>
    obtain ⟨h1, h2⟩ := List.pairwise_cons.1 hd
    simp only [unmap, hm t (by simp), if_true]
    rw [ih _ h2]
    · congr 1
      funext k
      simp only [List.map_cons, List.mem_cons]
      by_cases hk : k = t.cat
      · simp [hk]
      · simp [hk]
    · intro u hu
      have := h1 u hu
      simp only [if_neg (Ne.symm this)]
      exact hm u (by simp [hu])

/-- The state before the beam is applied. -/
structure Before (b : Nat) (c : Cell ι κ S) (offered : List (PTree ι κ S)) : Prop where
  ranked : Ranked c.trees
  distinct : c.trees.Pairwise (fun t u => t.cat ≠ u.cat)
  map : ∀ k t, c.treesMap k = some t ↔ t ∈ c.trees ∧ t.cat = k
  best : ∀ t ∈ c.trees, t ∈ offered ∧ ∀ u ∈ offered, u.cat = t.cat → u.score ≤ t.score
  covered : ∀ u ∈ offered, (∃ t ∈ c.trees, t.cat = u.cat) ∨ ∃ v, c.trees[b - 1]? = some v ∧ u.score < v.score
  ties : ∀ u v, c.trees[b - 1]? = some u → c.trees[b]? = some v → v.score = u.score → ∀ t ∈ c.trees, u.score ≤ t.score

theorem applyBeam_spec {b : Nat} (hb : 0 < b) (c : Cell ι κ S) (offered : List (PTree ι κ S)) (h : Before b c offered)
    (hmin : c.trees[b - 1]? = none → c.minScore = none) (n : Int) :
    ∃ r, applyBeam b c n = .ok r ∧ Holds b r.1 offered := by
  unfold applyBeam
  cases hu : c.trees[b - 1]? with
  | none =>
    simp only
    refine ⟨_, rfl, h.ranked, h.distinct, h.map, h.best, ?_, ?_, ?_⟩
    · intro u hu'
      rcases h.covered u hu' with h' | ⟨v, hv, _⟩
      · exact .inl h'
      · rw [hu] at hv; cases hv
    · rw [drop_le_iff h.ranked b hb]
      intro v hv; rw [hu] at hv; cases hv
    · rw [hu, hmin hu]; rfl
  | some u =>
    simp only
    have hlen : b ≤ c.trees.length := by
      obtain ⟨hlt, _⟩ := List.getElem?_eq_some_iff.1 hu; omega
    have keep : (∀ t ∈ c.trees, u.score ≤ t.score) → Holds b { c with minScore := some u.score } offered := by
      intro hall
      refine ⟨h.ranked, h.distinct, h.map, h.best, ?_, ?_, by simp [hu]⟩
      · intro w hw
        rcases h.covered w hw with h' | ⟨v, hv, hlt⟩
        · exact .inl h'
        · rw [hu] at hv; cases hv
          exact .inr ⟨hlen, fun t ht => lt_of_lt_of_le hlt (hall t ht)⟩
      · rw [drop_le_iff h.ranked b hb]
        intro v hv; rw [hu] at hv; cases hv
        exact hall
    have upto : ∀ t ∈ c.trees.take b, u.score ≤ t.score := by
      intro t ht
      obtain ⟨i, hi, rfl⟩ := List.mem_iff_getElem.1 ht
      simp only [List.length_take, lt_inf_iff] at hi
      simp only [List.getElem_take]
      exact ranked_get h.ranked (by omega) (List.getElem?_eq_getElem hi.2) hu
    cases hv : c.trees[b]? with
    | none =>
      simp only
      refine ⟨_, rfl, keep ?_⟩
      have : c.trees.take b = c.trees := List.take_of_length_le (List.getElem?_eq_none_iff.1 hv)
      rwa [this] at upto
    | some v =>
      simp only
      have hvu : v.score ≤ u.score := ranked_get h.ranked (by omega) hu hv
      split
      · rename_i hlt
        have hsplit : c.trees.take b ++ c.trees.drop b = c.trees := List.take_append_drop b c.trees
        have hr2 := h.ranked
        have hd2 := h.distinct
        rw [← hsplit] at hr2 hd2
        obtain ⟨r1, r2, r3⟩ := List.pairwise_append.1 hr2
        obtain ⟨d1, d2, d3⟩ := List.pairwise_append.1 hd2
        rw [unmap_spec _ _ d2 (by
          intro t ht
          have := (h.map t.cat t).2 ⟨List.mem_of_mem_drop ht, rfl⟩
          simp [this])]
        simp only
        have hbelow : ∀ t ∈ c.trees.drop b, t.score < u.score := by
          intro t ht
          obtain ⟨i, hi, rfl⟩ := List.mem_iff_getElem.1 ht
          simp only [List.length_drop] at hi
          simp only [List.getElem_drop]
          exact lt_of_le_of_lt (ranked_get h.ranked (Nat.le_add_right b i) hv (List.getElem?_eq_getElem (by omega))) hlt
        have htake : (c.trees.take b)[b - 1]? = some u := by
          rw [List.getElem?_take]; simp [hu]; omega
        refine ⟨_, rfl, r1, d1, ?_, ?_, ?_, ?_, ?_⟩
        · intro k t
          simp only
          by_cases hk : k ∈ (c.trees.drop b).map PTree.cat
          · simp only [hk, if_true]
            obtain ⟨w, hw, rfl⟩ := List.mem_map.1 hk
            constructor
            · intro h; cases h
            · rintro ⟨ht, hc⟩
              exact absurd hc (d3 t ht w hw)
          · simp only [hk, if_false]
            rw [h.map]
            constructor
            · rintro ⟨ht, rfl⟩
              refine ⟨?_, rfl⟩
              rw [← hsplit] at ht
              rcases List.mem_append.1 ht with ht | ht
              · exact ht
              · exact absurd (List.mem_map.2 ⟨t, ht, rfl⟩) hk
            · rintro ⟨ht, rfl⟩
              exact ⟨List.mem_of_mem_take ht, rfl⟩
        · intro t ht
          exact h.best t (List.mem_of_mem_take ht)
        · intro w hw
          have hcase : (∃ t ∈ c.trees.take b, t.cat = w.cat) ∨ w.score < u.score := by
            rcases h.covered w hw with ⟨t, ht, hc⟩ | ⟨v', hv', hlt'⟩
            · rw [← hsplit] at ht
              rcases List.mem_append.1 ht with ht | ht
              · exact .inl ⟨t, ht, hc⟩
              · have := (h.best t (by rw [← hsplit]; exact List.mem_append_right _ ht)).2 w hw hc.symm
                exact .inr (lt_of_le_of_lt this (hbelow t ht))
            · rw [hu] at hv'; cases hv'; exact .inr hlt'
          rcases hcase with h' | h'
          · exact .inl h'
          · exact .inr ⟨by simp [hlen], fun t ht => lt_of_lt_of_le h' (upto t ht)⟩
        · rw [drop_le_iff r1 b hb]
          intro v' hv'
          rw [htake] at hv'; cases hv'
          exact upto
        · simp only [htake]; rfl
      · rename_i hnlt
        refine ⟨_, rfl, keep (h.ties u v hu hv (le_antisymm hvu (not_lt.1 hnlt)))⟩

theorem nodup_of_distinct {l : List (PTree ι κ S)} (h : l.Pairwise (fun t u => t.cat ≠ u.cat)) : l.Nodup :=
  List.Pairwise.imp (fun hne he => hne (by rw [he])) h

theorem cat_unique {l : List (PTree ι κ S)} (h : l.Pairwise (fun t u => t.cat ≠ u.cat)) {t u : PTree ι κ S} (ht : t ∈ l) (hu : u ∈ l) (hc : t.cat = u.cat) : t = u := by
  induction l with
  | nil => simp at ht
  | cons a l ih =>
    obtain ⟨h1, h2⟩ := List.pairwise_cons.1 h
    rcases List.mem_cons.1 ht with e | ht'
    · rcases List.mem_cons.1 hu with e' | hu'
      · rw [e, e']
      · rw [e] at hc; exact absurd hc (h1 u hu')
    · rcases List.mem_cons.1 hu with e' | hu'
      · rw [e'] at hc; exact absurd hc.symm (h1 t ht')
      · exact ih h2 ht' hu'

/-- The trees left by `prepare`: those of other categories, in order; the deleted tree was worse. -/
theorem prepare_spec {b : Nat} {c : Cell ι κ S} {offered : List (PTree ι κ S)} (h : Holds b c offered) (t : PTree ι κ S) :
    (prepare c t = none ∧ ∃ old ∈ c.trees, old.cat = t.cat ∧ t.score ≤ old.score) ∨
    (∃ l, prepare c t = some l ∧ l.Sublist c.trees ∧ (∀ u ∈ l, u.cat ≠ t.cat) ∧ (∀ u ∈ c.trees, u.cat ≠ t.cat → u ∈ l) ∧
      (∀ u ∈ c.trees, u.cat = t.cat → u.score < t.score) ∧
      (∀ x : S, c.trees.countP (fun u => decide (x ≤ u.score)) ≤ l.countP (fun u => decide (x ≤ u.score)) + (if x ≤ t.score then 1 else 0)) ∧
      (l.length + 1 = c.trees.length ∨ l = c.trees)) := by
  unfold prepare
  cases hm : c.treesMap t.cat with
  | none =>
    right
    have hno : ∀ u ∈ c.trees, u.cat ≠ t.cat := by
      intro u hu hc
      have := (h.map t.cat u).2 ⟨hu, hc⟩
      rw [hm] at this; cases this
    refine ⟨_, rfl, List.Sublist.refl _, hno, fun u hu _ => hu, fun u hu hc => absurd hc (hno u hu), fun x => Nat.le_add_right _ _, .inr rfl⟩
  | some old =>
    obtain ⟨ho, hc⟩ := (h.map t.cat old).1 hm
    simp only
    split
    · rename_i hlt
      right
      have hn := nodup_of_distinct h.distinct
      rw [deleteTree_spec c.trees h.ranked hn old ho]
      refine ⟨_, rfl, List.erase_sublist, ?_, ?_, ?_, ?_, ?_⟩
      · intro u hu he
        have hum := (List.Nodup.mem_erase_iff hn).1 hu
        exact hum.1 (cat_unique h.distinct hum.2 ho (he.trans hc.symm))
      · intro u hu hne
        refine (List.Nodup.mem_erase_iff hn).2 ⟨?_, hu⟩
        rintro rfl; exact hne hc
      · intro u hu he
        have := cat_unique h.distinct hu ho (he.trans hc.symm)
        rw [this]; exact hlt
      · intro x
        have hp := List.perm_cons_erase ho
        rw [hp.countP_eq, List.countP_cons]
        by_cases hx : x ≤ old.score
        · simp [hx, hx.trans hlt.le]
        · simp [hx]
      · left
        have := List.length_erase_of_mem ho
        have := List.length_pos_of_mem ho
        omega
    · rename_i hge
      left
      exact ⟨rfl, old, ho, hc, not_lt.1 hge⟩

theorem addOne_spec {b : Nat} (hb : 0 < b) (c : Cell ι κ S) (offered : List (PTree ι κ S)) (h : Holds b c offered) (t : PTree ι κ S)
    (hbelow : b ≤ c.trees.length → ∀ l, c.trees.getLast? = some l → l.score ≤ t.score) (n : Int) :
    ∃ r, addOne b c t n = .ok r ∧ Holds b r.1 (t :: offered) := by
  unfold addOne
  rcases prepare_spec h t with ⟨hp, old, ho, hc, hle⟩ | ⟨l, hp, hsub, hne, hmem, hlt, hcount, hlen⟩
  · rw [hp]
    refine ⟨_, rfl, h.ranked, h.distinct, h.map, ?_, ?_, h.beam, h.minScore⟩
    · intro u hu
      obtain ⟨h1, h2⟩ := h.best u hu
      refine ⟨by simp [h1], ?_⟩
      intro w hw hcw
      rcases List.mem_cons.1 hw with rfl | hw
      · have := cat_unique h.distinct hu ho (hcw.symm.trans hc.symm)
        rw [this]; exact hle
      · exact h2 w hw hcw
    · intro w hw
      rcases List.mem_cons.1 hw with rfl | hw
      · exact .inl ⟨old, ho, hc⟩
      · exact h.covered w hw
  · rw [hp]
    simp only
    have hlr : Ranked l := List.Pairwise.sublist hsub h.ranked
    have hld : l.Pairwise (fun t u => t.cat ≠ u.cat) := List.Pairwise.sublist hsub h.distinct
    have hk := (C46_find l hlr t.score).1
    set L := l.insertIdx (find l t.score) t with hL
    have hperm : L.Perm (t :: l) := by rw [hL]; exact List.perm_insertIdx t l hk
    have hLr : Ranked L := by rw [hL]; exact insert_ranked l hlr t
    have hLm : ∀ u, u ∈ L ↔ u = t ∨ u ∈ l := fun u => by rw [hperm.mem_iff]; simp
    have hLc : ∀ x : S, L.countP (fun u => decide (x ≤ u.score)) = l.countP (fun u => decide (x ≤ u.score)) + (if x ≤ t.score then 1 else 0) := by
      intro x
      rw [hperm.countP_eq, List.countP_cons]
      simp
    have hmono : ∀ v, c.trees[b - 1]? = some v → ∃ v', L[b - 1]? = some v' ∧ v.score ≤ v'.score := by
      intro v hv
      rw [nth_iff_count hLr hb, hLc]
      exact ((nth_iff_count h.ranked hb v.score).1 ⟨v, hv, le_refl _⟩).trans (hcount v.score)
    have hbeam := (drop_le_iff h.ranked b hb).1 h.beam
    refine applyBeam_spec hb _ (t :: offered) ⟨hLr, ?_, ?_, ?_, ?_, ?_⟩ ?_ _
    · have : (t :: l).Pairwise (fun t u => t.cat ≠ u.cat) := List.pairwise_cons.2 ⟨fun u hu => (hne u hu).symm, hld⟩
      exact (hperm.pairwise_iff (fun {x y} h => Ne.symm h)).2 this
    · intro k u
      simp only [hLm]
      by_cases hk : k = t.cat
      · subst hk
        simp only [if_true]
        constructor
        · intro h; cases h; exact ⟨.inl rfl, rfl⟩
        · rintro ⟨rfl | hu, hc⟩
          · rfl
          · exact absurd hc (hne u hu)
      · simp only [hk, if_false]
        rw [h.map]
        constructor
        · rintro ⟨hu, rfl⟩
          exact ⟨.inr (hmem u hu hk), rfl⟩
        · rintro ⟨rfl | hu, rfl⟩
          · exact absurd rfl hk
          · exact ⟨hsub.subset hu, rfl⟩
    · intro u hu
      rcases (hLm u).1 hu with rfl | hu2
      · refine ⟨by simp, ?_⟩
        intro w hw hc
        rcases List.mem_cons.1 hw with rfl | hw
        · exact le_refl _
        · rcases h.covered w hw with ⟨v, hv, hcv⟩ | ⟨hlen, hall⟩
          · exact ((h.best v hv).2 w hw hcv.symm).trans (hlt v hv (hcv.trans hc)).le
          · obtain ⟨last, hlast⟩ : ∃ last, c.trees.getLast? = some last := by
              cases hh : c.trees.getLast? with
              | none => rw [List.getLast?_eq_none_iff.1 hh] at hlen; simp at hlen; omega
              | some x => exact ⟨x, rfl⟩
            exact (hall last (List.mem_of_getLast? hlast)).le.trans (hbelow hlen last hlast)
      · have hu' := hsub.subset hu2
        obtain ⟨h1, h2⟩ := h.best u hu'
        refine ⟨by simp [h1], ?_⟩
        intro w hw hc
        rcases List.mem_cons.1 hw with rfl | hw
        · exact absurd hc.symm (hne u hu2)
        · exact h2 w hw hc
    · intro w hw
      rcases List.mem_cons.1 hw with rfl | hw
      · exact .inl ⟨w, (hLm w).2 (.inl rfl), rfl⟩
      · rcases h.covered w hw with ⟨v, hv, hcv⟩ | ⟨hlen, hall⟩
        · by_cases hc : w.cat = t.cat
          · exact .inl ⟨t, (hLm t).2 (.inl rfl), hc.symm⟩
          · exact .inl ⟨v, (hLm v).2 (.inr (hmem v hv (by rw [hcv]; exact hc))), hcv⟩
        · right
          have hg : c.trees[b - 1]? = some (c.trees[b - 1]'(by omega)) := List.getElem?_eq_getElem (by omega)
          obtain ⟨v', hv', hle⟩ := hmono _ hg
          exact ⟨v', hv', lt_of_lt_of_le (hall _ (List.mem_of_getElem? hg)) hle⟩
    · -- ties
      intro u v hu hv he w hw
      have hcnt : b + 1 ≤ L.countP (fun x => decide (u.score ≤ x.score)) := by
        refine (nth_iff_count hLr (b := b + 1) (by omega) u.score).1 ⟨v, by simpa using hv, he.ge⟩
      have hcl : b ≤ c.trees.countP (fun x => decide (u.score ≤ x.score)) := by
        have h1 : L.countP (fun x => decide (u.score ≤ x.score)) ≤ l.countP (fun x => decide (u.score ≤ x.score)) + 1 := by
          rw [hLc]; split <;> omega
        have h2 := hsub.countP_le (p := fun x => decide (u.score ≤ x.score))
        omega
      obtain ⟨v0, hv0, hle0⟩ := (nth_iff_count h.ranked hb u.score).2 hcl
      have hall : ∀ x ∈ c.trees, u.score ≤ x.score := fun x hx => hle0.trans (hbeam v0 hv0 x hx)
      rcases (hLm w).1 hw with rfl | hw
      · have hlen : b ≤ c.trees.length := by
          obtain ⟨hlt, _⟩ := List.getElem?_eq_some_iff.1 hv0; omega
        obtain ⟨last, hlast⟩ : ∃ last, c.trees.getLast? = some last := by
          cases hh : c.trees.getLast? with
          | none => rw [List.getLast?_eq_none_iff.1 hh] at hlen; simp at hlen; omega
          | some x => exact ⟨x, rfl⟩
        exact (hall last (List.mem_of_getLast? hlast)).trans (hbelow hlen last hlast)
      · exact hall w (hsub.subset hw)
    · -- the minimal score
      intro hnone
      simp only at hnone
      simp only
      rw [h.minScore]
      cases hv : c.trees[b - 1]? with
      | none => rfl
      | some v =>
        obtain ⟨v', hv', _⟩ := hmono v hv
        rw [hnone] at hv'; cases hv'

theorem holds_perm {b : Nat} {c : Cell ι κ S} {o1 o2 : List (PTree ι κ S)} (h : Holds b c o1) (hm : ∀ t, t ∈ o1 ↔ t ∈ o2) : Holds b c o2 :=
  ⟨h.ranked, h.distinct, h.map, fun t ht => ⟨(hm t).1 (h.best t ht).1, fun u hu hc => (h.best t ht).2 u ((hm u).2 hu) hc⟩,
    fun u hu => h.covered u ((hm u).2 hu), h.beam, h.minScore⟩

theorem addLoop_spec {b : Nat} (hb : 0 < b) (ts : List (PTree ι κ S)) (hts : Ranked ts) (c : Cell ι κ S) (offered : List (PTree ι κ S)) (h : Holds b c offered)
    (n : Int) : ∃ r, addLoop b ts c n = .ok r ∧ Holds b r.1 (ts ++ offered) := by
  induction ts generalizing c offered n with
  | nil => exact ⟨_, rfl, h⟩
  | cons t ts ih =>
    obtain ⟨ht, hts'⟩ := List.pairwise_cons.1 hts
    have hbb : (belowBeam b c t = .ok true ∧ b ≤ c.trees.length ∧ ∃ l, c.trees.getLast? = some l ∧ t.score < l.score) ∨
        (belowBeam b c t = .ok false ∧ (b ≤ c.trees.length → ∀ l, c.trees.getLast? = some l → l.score ≤ t.score)) := by
      unfold belowBeam
      by_cases hl : b ≤ c.trees.length
      · rw [if_pos hl]
        cases hh : c.trees.getLast? with
        | none => rw [List.getLast?_eq_none_iff.1 hh] at hl; simp at hl; omega
        | some l =>
          simp only
          by_cases hs : t.score < l.score
          · left; exact ⟨by simp [hs], hl, l, rfl, hs⟩
          · right; exact ⟨by simp [hs], by rintro _ _ ⟨⟩; exact not_lt.1 hs⟩
      · rw [if_neg hl]
        exact .inr ⟨rfl, fun h => absurd h hl⟩
    rcases hbb with ⟨he, hlen, l, hl, hlt⟩ | ⟨he, hbelow⟩
    · simp only [addLoop, he]
      refine ⟨_, rfl, ?_⟩
      have hmin : ∀ u ∈ c.trees, l.score ≤ u.score := by
        have hlast : l ∈ c.trees := List.mem_of_getLast? hl
        intro u hu
        obtain ⟨i, hi, rfl⟩ := List.mem_iff_getElem.1 hu
        rw [List.getLast?_eq_getElem?] at hl
        exact ranked_get h.ranked (by omega) (List.getElem?_eq_getElem hi) hl
      have hsmall : ∀ w ∈ t :: ts, w.score < l.score := by
        intro w hw
        rcases List.mem_cons.1 hw with rfl | hw
        · exact hlt
        · exact lt_of_le_of_lt (ht w hw) hlt
      refine ⟨h.ranked, h.distinct, h.map, ?_, ?_, h.beam, h.minScore⟩
      · intro u hu
        obtain ⟨h1, h2⟩ := h.best u hu
        refine ⟨List.mem_append_right _ h1, ?_⟩
        intro w hw hc
        rcases List.mem_append.1 hw with hw | hw
        · exact ((hsmall w hw).le).trans (hmin u hu)
        · exact h2 w hw hc
      · intro w hw
        rcases List.mem_append.1 hw with hw | hw
        · exact .inr ⟨hlen, fun u hu => lt_of_lt_of_le (hsmall w hw) (hmin u hu)⟩
        · exact h.covered w hw
    · simp only [addLoop, he]
      obtain ⟨r, hr, hh⟩ := addOne_spec hb c offered h t hbelow n
      rw [hr]
      simp only
      obtain ⟨r2, hr2, hh2⟩ := ih hts' r.1 (t :: offered) hh r.2
      exact ⟨r2, hr2, holds_perm hh2 (by intro u; simp [or_assoc, or_comm, or_left_comm])⟩

theorem empty_holds (b : Nat) : Holds b (Cell.empty : Cell ι κ S) [] :=
  ⟨List.Pairwise.nil, List.Pairwise.nil, by simp [Cell.empty], by simp [Cell.empty], by simp, by simp [Cell.empty], by simp [Cell.empty]⟩

/-- **C46 (one call).** Adding trees to a good cell does not raise and gives a good cell for everything offered. -/
theorem C46_add {b : Nat} (hb : 0 < b) (c : Cell ι κ S) (offered toAdd : List (PTree ι κ S)) (h : Holds b c offered) :
    ∃ r, c.add b toAdd = .ok r ∧ Holds b r.1 (toAdd ++ offered) := by
  have hp := List.perm_insertionSort (fun t u : PTree ι κ S => u.score ≤ t.score) toAdd
  have hs : Ranked (toAdd.insertionSort (fun t u : PTree ι κ S => u.score ≤ t.score)) := by
    have : Std.Total (fun t u : PTree ι κ S => u.score ≤ t.score) := ⟨fun a b => le_total _ _⟩
    have : IsTrans (PTree ι κ S) (fun t u : PTree ι κ S => u.score ≤ t.score) := ⟨fun a b c h1 h2 => h2.trans h1⟩
    exact List.pairwise_insertionSort _ toAdd
  obtain ⟨r, hr, hh⟩ := addLoop_spec hb _ hs c offered h 0
  exact ⟨r, hr, holds_perm hh (by intro u; simp [hp.mem_iff])⟩

/-- **C46.** For every beam size of at least 1 and every history of calls of `add` on a new cell, with any trees in any order: no call
raises, and at the end the cell holds what it should (`Holds`), for all trees offered. -/
theorem C46_history {b : Nat} (hb : 0 < b) (calls : List (List (PTree ι κ S))) :
    ∃ c, Cell.addMany b calls Cell.empty = .ok c ∧ Holds b c calls.flatten := by
  have key : ∀ (calls : List (List (PTree ι κ S))) (c : Cell ι κ S) (offered : List (PTree ι κ S)), Holds b c offered →
      ∃ c', Cell.addMany b calls c = .ok c' ∧ Holds b c' (calls.flatten ++ offered) := by
    intro calls
    induction calls with
    | nil => intro c o h; exact ⟨c, rfl, h⟩
    | cons l ls ih =>
      intro c o h
      obtain ⟨r, hr, hh⟩ := C46_add hb c o l h
      simp only [Cell.addMany, hr]
      obtain ⟨c', hc', hh'⟩ := ih r.1 _ hh
      exact ⟨c', hc', holds_perm hh' (by intro u; simp [or_assoc, or_comm, or_left_comm])⟩
  obtain ⟨c, hc, hh⟩ := key calls Cell.empty [] (empty_holds b)
  exact ⟨c, hc, by simpa using hh⟩

/-- The number of trees held exceeds the beam only by ties with the last one in the beam. -/
theorem C46_beam {b : Nat} (hb : 0 < b) {c : Cell ι κ S} {offered : List (PTree ι κ S)} (h : Holds b c offered) (i j : Nat) (t u : PTree ι κ S)
    (hi : b - 1 ≤ i) (hj : b - 1 ≤ j) (ht : c.trees[i]? = some t) (hu : c.trees[j]? = some u) : t.score = u.score := by
  have key : ∀ (i : Nat) (t : PTree ι κ S), b - 1 ≤ i → c.trees[i]? = some t → t ∈ c.trees.drop (b - 1) := by
    intro i t hi ht
    obtain ⟨hlt, rfl⟩ := List.getElem?_eq_some_iff.1 ht
    exact List.mem_iff_getElem.2 ⟨i - (b - 1), by simp; omega, by simp only [List.getElem_drop]; congr 1; omega⟩
  exact le_antisymm (h.beam u (List.mem_of_getElem? hu) t (key i t hi ht)) (h.beam t (List.mem_of_getElem? ht) u (key j u hj hu))

/-- A beam of 2: the second `A` (better) replaces the first; `D` ties with `A` and stays; `C` is below the beam; then `E` pushes out both. -/
example : ((Cell.addMany (ι := Nat) (κ := String) (S := Int) 2 [[⟨1, "A", 1⟩, ⟨2, "B", 5⟩], [⟨3, "C", 0⟩, ⟨4, "A", 3⟩, ⟨5, "D", 3⟩]] Cell.empty).toOption.map
    (fun c => (c.trees.map PTree.id, c.minScore)),
   (Cell.addMany (ι := Nat) (κ := String) (S := Int) 2 [[⟨1, "A", 1⟩, ⟨2, "B", 5⟩], [⟨3, "C", 0⟩, ⟨4, "A", 3⟩, ⟨5, "D", 3⟩], [⟨6, "E", 4⟩]] Cell.empty).toOption.map
    (fun c => (c.trees.map PTree.id, c.minScore, (c.treesMap "A").isSome)))
  = (some ([2, 5, 4], some 3), some ([2, 6], some 4, false)) := by decide +kernel

/-- A beam of 0: the first `add` raises. -/
theorem C46_refuted_beam_zero (t : PTree ι κ S) : (Cell.empty : Cell ι κ S).add 0 [t] = .error .indexError := by
  simp [Cell.add, addLoop, belowBeam, Cell.empty]

end Bobcat
end Lambeq
