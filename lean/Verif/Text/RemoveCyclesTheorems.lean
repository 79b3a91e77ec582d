import Verif.Text.RemoveCyclesTree

/-!
# Breaking cycles: theorems (C103)
-/

namespace Lambeq
namespace DTree
open PTree GDiagram Diagram
set_option linter.unusedSimpArgs false
set_option linter.unusedVariables false

theorem best_zero (a : Int) (l : List Int) (h : ∀ x ∈ l, x ≤ a) : best (a :: l) = 0 := by
  have key : ∀ (l : List (Int × Nat)), (∀ x ∈ l, x.1 ≤ a) → l.foldl (fun (b : Int × Nat) x => if x.1 > b.1 then x else b) (a, 0) = (a, 0) := by
    intro l
    induction l with
    | nil => intro _; rfl
    | cons x l ih =>
      intro h
      have := h x (by simp)
      rw [List.foldl_cons, if_neg (by simp only; omega)]
      exact ih (fun y hy => h y (by simp [hy]))
  unfold best
  rw [List.headD_cons, key]
  intro x hx
  obtain ⟨i, hi⟩ := List.getElem?_of_mem hx
  rw [List.getElem?_zipIdx] at hi
  obtain ⟨y, hy, rfl⟩ := Option.map_eq_some_iff.1 hi
  rcases List.mem_cons.1 (List.mem_of_getElem? hy) with rfl | hm
  · exact Int.le_refl _
  · exact h _ hm

theorem mem_selfs {l : List (Path × PTree)} {r : Path} : r ∈ selfs [] l ↔ ∃ x ∈ l, ∃ (j : Nat) (c : PTree), x.2.children[j]? = some c ∧ key c = key x.2 ∧ r = x.1 ++ [j] := by
  simp only [selfs, List.mem_flatMap, List.isPrefixOf_nil_left, if_true, List.mem_map, List.mem_filter, decide_eq_true_eq]
  constructor
  · rintro ⟨x, hx, ⟨c, j⟩, ⟨h1, h2⟩, rfl⟩
    refine ⟨x, hx, j, c, ?_, by simp [key, h2.1, h2.2], rfl⟩
    have := List.mem_zipIdx_iff_getElem?.1 h1
    simpa using this
  · rintro ⟨x, hx, j, c, h1, h2, rfl⟩
    refine ⟨x, hx, (c, j), ⟨List.mem_zipIdx_iff_getElem?.2 (by simpa using h1), ?_⟩, rfl⟩
    simp only [key, Prod.mk.injEq] at h2
    exact h2

/-- The words of the tree have one text each. -/
def Consistent (t : PTree) : Prop := ∀ s ∈ t.subs, ∀ s' ∈ t.subs, s.ind = s'.ind → s.word = s'.word

/-- The copies of words that are not the first ones. -/
def NotFirst (t : PTree) (r : Path) : Prop := ∃ i, ∃ x ∈ (copies t i).tail, x.1 = r

section
variable {t : PTree}

theorem mem_copies {i : Nat} {x : Path × PTree} : x ∈ copies t i ↔ x ∈ pre [] t ∧ x.2.ind = i := by simp [copies]

theorem copies_nodup (i : Nat) : (copies t i).Nodup := pre_nodup.filter _

theorem first_not {i : Nat} {x : Path × PTree} {l : List (Path × PTree)} (h : copies t i = x :: l) : ¬ NotFirst t x.1 := by
  rintro ⟨j, y, hy, e⟩
  have hx : x ∈ copies t i := by rw [h]; simp
  have hy' := List.mem_of_mem_tail hy
  have : y = x := pre_inj (mem_copies.1 hy').1 (mem_copies.1 hx).1 e
  subst this
  have hij : i = j := (mem_copies.1 hx).2.symm.trans (mem_copies.1 hy').2
  subst hij
  rw [h] at hy
  have := copies_nodup (t := t) i
  rw [h] at this
  exact (List.nodup_cons.1 this).1 hy

theorem root_copies : ∃ l, copies t t.ind = ([], t) :: l := by
  cases t with
  | node w i ty cs => exact ⟨_, by simp [copies, pre, PTree.ind]; rfl⟩

/-- Later copies have no children; they are copies of their parents or not deeper than the first. -/
theorem copies_later (hd : Dup t) (hc : Consistent t) {i : Nat} {x : Path × PTree} {l : List (Path × PTree)} (h : copies t i = x :: l) :
    ∀ y ∈ l, y.2.children = [] ∧ (y.1 ∈ selfs [] (flatP [] t) ∨ y.1.length ≤ x.1.length) := by
  have hS : HasSelfs (selfs [] (flatP [] t)) (pre [] t) := by
    intro x hx j c h1 h2
    exact mem_selfs.2 ⟨x, (flat_pre t []).2.mem_iff.2 hx, j, c, h1, h2, rfl⟩
  have hp := (pre_dup _ hd hS).filter (fun y => y.2.ind == i)
  change (copies t i).Pairwise _ at hp
  rw [h] at hp
  intro y hy
  have hy' : y ∈ copies t i := by rw [h]; simp [hy]
  have hx' : x ∈ copies t i := by rw [h]; simp
  refine (List.pairwise_cons.1 hp).1 y hy ?_
  have hs : ∀ z ∈ copies t i, z.2 ∈ t.subs := fun z hz => by rw [← pre_subs (p := [])]; exact List.mem_map_of_mem (mem_copies.1 hz).1
  have e : x.2.ind = y.2.ind := (mem_copies.1 hx').2.trans (mem_copies.1 hy').2.symm
  simp only [key, hc _ (hs x hx') _ (hs y hy') e, e]

theorem notFirst_leaf (hd : Dup t) (hc : Consistent t) {r : Path} (h : NotFirst t r) : ∃ s, (r, s) ∈ pre [] t ∧ s.children = [] ∧ r ≠ [] := by
  obtain ⟨i, y, hy, rfl⟩ := h
  have hy' := List.mem_of_mem_tail hy
  refine ⟨y.2, (mem_copies.1 hy').1, ?_, ?_⟩
  · cases h : copies t i with
    | nil => rw [h] at hy; simp at hy
    | cons x l => rw [h] at hy; exact (copies_later hd hc h y hy).1
  · intro e
    obtain ⟨l, hl⟩ := root_copies (t := t)
    exact first_not hl ⟨i, y, hy, e⟩

/-- Copies of parents are not the first ones. -/
theorem selfs_notFirst (hd : Dup t) (hc : Consistent t) {r : Path} (h : r ∈ selfs [] (flatP [] t)) : NotFirst t r := by
  obtain ⟨x, hx, j, c, h1, h2, rfl⟩ := mem_selfs.1 h
  have hx := (flat_pre t []).2.mem_iff.1 hx
  have hc' := pre_child hx h1
  have hi : c.ind = x.2.ind := congrArg Prod.snd h2
  have m1 : (x.1 ++ [j], c) ∈ copies t c.ind := mem_copies.2 ⟨hc', rfl⟩
  have m2 : x ∈ copies t c.ind := mem_copies.2 ⟨hx, hi.symm⟩
  refine ⟨c.ind, (x.1 ++ [j], c), ?_, rfl⟩
  cases e : copies t c.ind with
  | nil => rw [e] at m1; simp at m1
  | cons y l =>
    rw [e] at m1 m2
    rcases List.mem_cons.1 m1 with rfl | m1
    · rcases List.mem_cons.1 m2 with m2 | m2
      · have := congrArg (fun z => z.1.length) m2
        simp at this
      · have := (copies_later hd hc e x m2).1
        rw [this] at h1
        simp at h1
    · exact m1

/-- What is removed: all copies but the first ones. -/
structure Removed (t : PTree) (R : List Path) : Prop where
  selfs : ∀ r ∈ selfs [] (flatP [] t), r ∈ R
  sound : ∀ r ∈ R, NotFirst t r

theorem cut_first (hd : Dup t) (hc : Consistent t) {R : List Path} (hR : Removed t R) {i : Nat} {x : Path × PTree} {l : List (Path × PTree)} (h : copies t i = x :: l) :
    cutGroup [] R (x :: l) = R ++ l.map Prod.fst ∧ Removed t (R ++ l.map Prod.fst) := by
  have hx : x ∈ copies t i := by rw [h]; simp
  have hrem : Removed t (R ++ l.map Prod.fst) := by
    refine ⟨fun r hr => List.mem_append_left _ (hR.selfs r hr), ?_⟩
    intro r hr
    rcases List.mem_append.1 hr with hr | hr
    · exact hR.sound r hr
    · obtain ⟨y, hy, rfl⟩ := List.mem_map.1 hr
      exact ⟨i, y, by rw [h]; exact hy, rfl⟩
  refine ⟨?_, hrem⟩
  have hdx : depth [] R x.1 = x.1.length := by
    unfold depth
    rw [if_pos]
    · simp
    · simp only [List.isPrefixOf_nil_left, Bool.true_and, List.all_eq_true, Bool.not_eq_true', Bool.and_eq_false_iff, decide_eq_false_iff_not]
      intro r hr
      right
      rw [← Bool.not_eq_true, List.isPrefixOf_iff_prefix]
      intro hp
      obtain ⟨s, h1, h2, h3⟩ := notFirst_leaf hd hc (hR.sound r hr)
      have := pre_leaf h1 (mem_copies.1 hx).1 h2 hp
      have hn := hR.sound r hr
      have e : x.1 = r := by rw [this]
      rw [← e] at hn
      exact first_not h hn
  have hdl : ∀ y ∈ l, depth [] R y.1 ≤ depth [] R x.1 := by
    intro y hy
    rw [hdx]
    rcases (copies_later hd hc h y hy).2 with hs | hs
    · have hy' : y.1 ≠ [] := by
        obtain ⟨_, _, _, h3⟩ := notFirst_leaf hd hc ⟨i, y, by rw [h]; exact hy, rfl⟩
        exact h3
      unfold depth
      rw [if_neg]
      · omega
      · simp only [List.isPrefixOf_nil_left, Bool.true_and, List.all_eq_true, Bool.not_eq_true', Bool.and_eq_false_iff, decide_eq_false_iff_not, not_forall]
        refine ⟨y.1, hR.selfs _ hs, ?_⟩
        rw [← Bool.not_eq_true, List.isPrefixOf_iff_prefix]
        have := List.length_pos_iff.2 hy'
        simp [this]
    · unfold depth
      split
      · simp; exact hs
      · omega
  unfold cutGroup
  cases l with
  | nil => simp
  | cons y l =>
    rw [if_pos (by simp)]
    have hb : best ((x :: y :: l).map (fun z => depth [] R z.1)) = 0 := by
      rw [List.map_cons]
      refine best_zero _ _ ?_
      intro d hd'
      obtain ⟨z, hz, rfl⟩ := List.mem_map.1 hd'
      exact hdl z hz
    rw [hb]
    simp only [List.map_cons, List.eraseIdx_zero, List.tail_cons]
    rw [List.filter_eq_self.2]
    intro r hr
    have : NotFirst t r := hrem.sound r (List.mem_append_right _ hr)
    obtain ⟨_, _, _, h3⟩ := notFirst_leaf hd hc this
    simpa using h3

theorem fold_cut (hd : Dup t) (hc : Consistent t) (gs : List (List (Path × PTree))) (hg : ∀ g ∈ gs, g ≠ [] ∧ ∃ i, g = copies t i) (R : List Path) (hR : Removed t R) :
    Removed t (gs.foldl (cutGroup []) R) ∧ (∀ r ∈ R, r ∈ gs.foldl (cutGroup []) R) ∧ ∀ g ∈ gs, ∀ y ∈ g.tail, y.1 ∈ gs.foldl (cutGroup []) R := by
  induction gs generalizing R with
  | nil => exact ⟨hR, fun r h => h, by simp⟩
  | cons g gs ih =>
    obtain ⟨hne, i, hi⟩ := hg g (by simp)
    obtain ⟨x, l, rfl⟩ := List.exists_cons_of_ne_nil hne
    obtain ⟨h1, h2⟩ := cut_first hd hc hR hi.symm
    obtain ⟨j1, j2, j3⟩ := ih (fun g hg' => hg g (by simp [hg'])) _ h2
    rw [List.foldl_cons, h1]
    refine ⟨j1, fun r hr => j2 r (by simp [hr]), ?_⟩
    intro g hg' y hy
    rcases List.mem_cons.1 hg' with rfl | hg'
    · exact j2 _ (List.mem_append_right _ (List.mem_map_of_mem hy))
    · exact j3 g hg' y hy

/-- The group at the index of the root. -/
theorem groups_root (hgap : ∀ i < t.ind, i ∈ t.inds) : (groups t)[t.ind]? = some (copies t t.ind) := by
  obtain ⟨n, h1, h2⟩ := groups_eq t
  rw [h2]
  have hroot : (([] : Path), t) ∈ pre [] t := by cases t; simp [pre]
  have hn : t.ind < n := h1 _ hroot
  obtain ⟨m, rfl⟩ : ∃ m, n = (t.ind + 1) + m := ⟨n - (t.ind + 1), by omega⟩
  have hfull : ∀ i ∈ List.range (t.ind + 1), copies t i ≠ [] := by
    intro i hi
    have hi : i < t.ind + 1 := List.mem_range.1 hi
    have hm : i ∈ t.inds := by
      by_cases e : i = t.ind
      · subst e; exact ind_mem_inds t
      · exact hgap i (by omega)
    obtain ⟨s, hs, rfl⟩ := List.mem_map.1 hm
    rw [← pre_subs (p := [])] at hs
    obtain ⟨x, hx, rfl⟩ := List.mem_map.1 hs
    exact List.ne_nil_of_mem (mem_copies.2 ⟨hx, rfl⟩)
  rw [List.range_add, List.map_append, List.filter_append]
  have e : ((List.range (t.ind + 1)).map (copies t)).filter (fun g => !g.isEmpty) = (List.range (t.ind + 1)).map (copies t) := by
    refine List.filter_eq_self.2 ?_
    intro g hg
    obtain ⟨i, hi, rfl⟩ := List.mem_map.1 hg
    simpa using hfull i hi
  rw [e, List.getElem?_append_left (by simp), List.getElem?_map, List.getElem?_range (by omega)]
  rfl

theorem copies_length (i : Nat) : (copies t i).length = t.inds.count i := by
  rw [copies, ← List.countP_eq_length_filter, inds, ← pre_subs (p := []), List.map_map, List.count, List.countP_map]
  rfl

/-- What `remove_cycles` does when later copies are leaves that are copies of their parents, or not deeper than the first copy. -/
theorem removeCycles_ok (hd : Dup t) (hc : Consistent t) (hgap : ∀ i < t.ind, i ∈ t.inds) (hone : t.inds.count t.ind = 1) :
    ∃ t', removeCycles t = .ok t' ∧ t'.inds.Nodup ∧ (∀ k, k ∈ keys t' ↔ k ∈ keys t) ∧ (edges t').Sublist (edges t) ∧ t'.word = t.word ∧ t'.ind = t.ind ∧ t'.typ = t.typ := by
  obtain ⟨l, hl⟩ := root_copies (t := t)
  have hl0 : l = [] := by
    have := copies_length (t := t) t.ind
    rw [hl, hone] at this
    simpa using this
  subst hl0
  obtain ⟨n, hn, hgs⟩ := groups_eq t
  have hgr : ∀ g ∈ groups t, g ≠ [] ∧ ∃ i, g = copies t i := by
    intro g hg
    rw [hgs] at hg
    simp only [List.mem_filter, List.mem_map] at hg
    obtain ⟨⟨i, _, rfl⟩, h⟩ := hg
    exact ⟨by simpa using h, i, rfl⟩
  obtain ⟨r1, r2, r3⟩ := fold_cut hd hc (groups t) hgr (selfs [] (flatP [] t)) ⟨fun r h => h, fun r h => selfs_notFirst hd hc h⟩
  unfold removeCycles
  rw [groups_root hgap, hl]
  simp only
  generalize (groups t).foldl (cutGroup []) (selfs [] (flatP [] t)) = R at r1 r2 r3
  have hiff : ∀ r, r ∈ R ↔ NotFirst t r := by
    intro r
    refine ⟨r1.sound r, ?_⟩
    rintro ⟨i, y, hy, rfl⟩
    refine r3 (copies t i) ?_ y hy
    rw [hgs]
    have hy' := List.mem_of_mem_tail hy
    have hlt := hn _ (mem_copies.1 hy').1
    rw [(mem_copies.1 hy').2] at hlt
    refine List.mem_filter.2 ⟨List.mem_map_of_mem (List.mem_range.2 hlt), ?_⟩
    have := List.ne_nil_of_mem hy'
    simpa using this
  have hkeys : keys (prune R [] t) = ((pre [] t).filter (fun x => decide (x.1 ∉ R))).map (fun x => key x.2) := by
    refine prune_keys R ?_ ?_
    · intro h
      exact first_not hl ((hiff _).1 h)
    · intro x hx h
      obtain ⟨s, h1, h2, _⟩ := notFirst_leaf hd hc ((hiff _).1 h)
      have := pre_inj hx h1 rfl
      rw [this]; exact h2
  refine ⟨_, rfl, ?_, ?_, prune_edges R, (prune_root R [] t).1, (prune_root R [] t).2.1, (prune_root R [] t).2.2⟩
  · have hin : (prune R [] t).inds = ((pre [] t).filter (fun x => decide (x.1 ∉ R))).map (fun x => x.2.ind) := by
      have : (prune R [] t).inds = (keys (prune R [] t)).map Prod.snd := by simp [keys, inds, List.map_map, Function.comp_def]
      rw [this, hkeys, List.map_map]
      rfl
    rw [hin, List.Nodup, List.pairwise_map, List.pairwise_filter]
    refine List.pairwise_iff_forall_sublist.2 ?_
    intro x y hxy hx hy e
    simp only [decide_eq_true_eq] at hy
    apply hy
    rw [hiff]
    refine ⟨x.2.ind, y, ?_, rfl⟩
    have h2 : [x, y].Sublist (copies t x.2.ind) := by
      have := hxy.filter (fun z => z.2.ind == x.2.ind)
      simpa [e, copies] using this
    cases hcp : copies t x.2.ind with
    | nil => rw [hcp] at h2; simp at h2
    | cons z l =>
      rw [hcp] at h2
      rw [List.tail_cons]
      exact h2.tail.subset (by simp)
  · intro k
    rw [hkeys]
    constructor
    · intro h
      obtain ⟨x, hx, rfl⟩ := List.mem_map.1 h
      exact key_mem_pre (List.mem_filter.1 hx).1
    · intro h
      obtain ⟨s, hs, rfl⟩ := mem_keys.1 h
      have hs' := hs
      rw [← pre_subs (p := [])] at hs
      obtain ⟨x, hx, rfl⟩ := List.mem_map.1 hs
      have hm : x ∈ copies t x.2.ind := mem_copies.2 ⟨hx, rfl⟩
      cases e : copies t x.2.ind with
      | nil => rw [e] at hm; simp at hm
      | cons z l =>
        have hz : z ∈ copies t x.2.ind := by rw [e]; simp
        obtain ⟨z1, z2⟩ := mem_copies.1 hz
        refine List.mem_map.2 ⟨z, List.mem_filter.2 ⟨z1, ?_⟩, ?_⟩
        · simp only [decide_eq_true_eq, hiff]
          exact first_not e
        · have hzs : z.2 ∈ t.subs := by rw [← pre_subs (p := [])]; exact List.mem_map_of_mem z1
          simp only [key, hc _ hzs _ hs' z2, z2]

end

theorem zipIdx_owner {wl : List GLayer} : ∀ {n : Nat} {a b : Key}, a ∈ ((wl.zipIdx n).map (fun x => List.replicate x.1.box.cod.length (name x.1.box, x.2))).flatten →
    b ∈ ((wl.zipIdx n).map (fun x => List.replicate x.1.box.cod.length (name x.1.box, x.2))).flatten → a.2 = b.2 → a.1 = b.1 := by
  intro n a b ha hb e
  simp only [List.mem_flatten, List.mem_map] at ha hb
  obtain ⟨_, ⟨x, hx, rfl⟩, ha⟩ := ha
  obtain ⟨_, ⟨y, hy, rfl⟩, hb⟩ := hb
  have ha := List.eq_of_mem_replicate ha
  have hb := List.eq_of_mem_replicate hb
  subst ha hb
  simp only at e ⊢
  have h1 := List.mk_mem_zipIdx_iff_le_and_getElem?_sub.1 (show (x.1, x.2) ∈ wl.zipIdx n from hx)
  have h2 := List.mk_mem_zipIdx_iff_le_and_getElem?_sub.1 (show (y.1, y.2) ∈ wl.zipIdx n from hy)
  rw [e, h2.2] at h1
  rw [Option.some.inj h1.2]

/-- In the tree of a diagram, words have one text, and later copies are as `remove_cycles` needs them. -/
theorem tree_of_diagram {d : GDiagram} (hw : d.WT) (hp : isPregroup d = true) (hl : ∃ l ∈ d.layers, isWord l.box = false) {t : PTree} (h : diagram2tree d = .ok t) (hcod : d.cod ≠ []) :
    Dup t ∧ Consistent t ∧ diagram2treeBreak d = removeCycles t := by
  obtain ⟨wl, ls, s, ht⟩ := traced d hw hp
  have hne : ls ≠ [] := by
    rintro rfl
    obtain ⟨l, hl1, hl2⟩ := hl
    rw [ht.split, List.append_nil] at hl1
    rw [ht.words l hl1] at hl2
    cases hl2
  have hj : s.joins ≠ [] := by
    intro e
    have := ht.count
    rw [e] at this
    exact hne (List.length_eq_zero_iff.1 this.symm)
  have hbr : diagram2treeBreak d = removeCycles t := by
    unfold diagram2treeBreak
    simp only [ht.trace, h, if_neg hj]
  unfold diagram2tree at h
  simp only [ht.trace, if_neg hj] at h
  unfold Wiring.build at h
  split at h
  · cases h
  · rename_i r hr
    split at hr
    · cases hr
    · cases hr
      cases h
      refine ⟨grow_dup s.wiring _ _ _ ht.good (by omega), ?_, hbr⟩
      have hown : ∀ k ∈ keys (s.wiring.grow (s.cups.length + 1) s.wiring.root s.cups).1, k ∈ s.owners := by
        intro k hk
        have hol : s.owners.length = s.types.length := by rw [ht.owners, ht.types]; exact owners_length wl 0
        have hget : ∀ i, i < s.owners.length → s.wiring.owner i ∈ s.owners := by
          intro i hi
          simp only [Wiring.owner, Trace.wiring, List.getD_eq_getElem?_getD, List.getElem?_eq_getElem hi, Option.getD_some]
          exact List.getElem_mem hi
        rcases grow_keys s.wiring _ _ _ ht.good (by omega) k hk with rfl | ⟨i, hi, rfl⟩
        · refine hget _ ?_
          have hlv := ht.live hne
          have hln : s.live ≠ [] := by
            intro e
            rw [e] at hlv
            simp at hlv
            exact hcod hlv.1
          obtain ⟨a, l, e⟩ := List.exists_cons_of_ne_nil hln
          show s.live.headD 0 < _
          rw [e, hol]
          exact ((hlv.2 0 a).1 (by rw [e]; rfl)).1
        · exact hget _ (ht.good.lt i hi)
      intro a ha b hb e
      have ka := hown _ (mem_keys.2 ⟨a, ha, rfl⟩)
      have kb := hown _ (mem_keys.2 ⟨b, hb, rfl⟩)
      rw [ht.owners] at ka kb
      exact zipIdx_owner ka kb e

/-- **C103 (break cycles).** Let `diagram2tree` return the tree `t` for a well-typed pregroup diagram with a cup or swap and with an output. Let all words before the root be in the tree, and let the root be there only
once (it has no cup with itself). Then with `break_cycles` the result is a tree with the same root, in which every word of `t` is exactly once; its edges (word, child, simple type of the child) are edges of `t`. -/
theorem C103_break_cycles (d : GDiagram) (hw : d.WT) (hp : isPregroup d = true) (hl : ∃ l ∈ d.layers, isWord l.box = false) (hcod : d.cod ≠ []) (t : PTree) (h : diagram2tree d = .ok t)
    (hgap : ∀ i < t.ind, i ∈ t.inds) (hone : t.inds.count t.ind = 1) :
    ∃ t', diagram2treeBreak d = .ok t' ∧ t'.inds.Nodup ∧ (∀ k, k ∈ keys t' ↔ k ∈ keys t) ∧ (edges t').Sublist (edges t) ∧ t'.word = t.word ∧ t'.ind = t.ind ∧ t'.typ = t.typ := by
  obtain ⟨h1, h2, h3⟩ := tree_of_diagram hw hp hl h hcod
  rw [h3]
  exact removeCycles_ok h1 h2 hgap hone

/-- **C103 (trees without cycles).** If every word is once in the tree and all words before the root are there, `remove_cycles` changes nothing. -/
theorem C103_no_cycles (t : PTree) (hn : t.inds.Nodup) (hgap : ∀ i < t.ind, i ∈ t.inds) : removeCycles t = .ok t := by
  have hcop : ∀ i, (copies t i).length ≤ 1 := fun i => by rw [copies_length]; exact List.nodup_iff_count_le_one.1 hn i
  have hself : selfs [] (flatP [] t) = [] := by
    refine List.eq_nil_iff_forall_not_mem.2 ?_
    intro r hr
    obtain ⟨x, hx, j, c, h1, h2, rfl⟩ := mem_selfs.1 hr
    have hx := (flat_pre t []).2.mem_iff.1 hx
    have m1 : (x.1 ++ [j], c) ∈ copies t c.ind := mem_copies.2 ⟨pre_child hx h1, rfl⟩
    have m2 : x ∈ copies t c.ind := mem_copies.2 ⟨hx, (congrArg Prod.snd h2).symm⟩
    have hle := hcop c.ind
    cases e : copies t c.ind with
    | nil => rw [e] at m1; simp at m1
    | cons y l =>
      rw [e] at hle m1 m2
      have : l = [] := by simpa using hle
      subst this
      simp at m1 m2
      rw [← m1] at m2
      have := congrArg (fun z => z.1.length) m2
      simp at this
  have hfold : ∀ gs : List (List (Path × PTree)), (∀ g ∈ gs, g.length ≤ 1) → gs.foldl (cutGroup []) [] = [] := by
    intro gs
    induction gs with
    | nil => intro _; rfl
    | cons g gs ih =>
      intro h
      have := h g (by simp)
      rw [List.foldl_cons, cutGroup, if_neg (by omega)]
      exact ih (fun g' hg' => h g' (by simp [hg']))
  have hprune : ∀ (u : PTree) (p : Path), prune [] p u = u := by
    intro u
    induction u using ind' with
    | H w i ty cs ih =>
      intro p
      have hl : ∀ (cs : List PTree), (∀ c ∈ cs, ∀ p, prune [] p c = c) → ∀ k, prunes [] p k cs = cs := by
        intro cs
        induction cs with
        | nil => intro _ k; rfl
        | cons c cs ihc =>
          intro h k
          simp [prunes, h c (by simp), ihc (fun d hd => h d (by simp [hd])) (k + 1)]
      simp only [prune, hl cs ih 0]
  obtain ⟨l, hl⟩ := root_copies (t := t)
  have hl0 : l = [] := by
    have := hcop t.ind
    rw [hl] at this
    simpa using this
  subst hl0
  unfold removeCycles
  rw [groups_root hgap, hl]
  simp only [hself]
  rw [hfold, hprune]
  intro g hg
  obtain ⟨n, _, hgs⟩ := groups_eq t
  rw [hgs] at hg
  simp only [List.mem_filter, List.mem_map] at hg
  obtain ⟨⟨i, _, rfl⟩, _⟩ := hg
  exact hcop i

/-- **C103 (cycles at the root).** If the root is a copy of another node, then `remove_cycles` raises `AssertionError` (all words before the root being in the tree). -/
theorem C103_root_cycle (t : PTree) (hgap : ∀ i < t.ind, i ∈ t.inds) (hone : t.inds.count t.ind ≠ 1) : removeCycles t = .error .assertionError := by
  unfold removeCycles
  rw [groups_root hgap]
  have := copies_length (t := t) t.ind
  cases e : copies t t.ind with
  | nil => rfl
  | cons x l =>
    cases l with
    | nil => rw [e] at this; exact absurd this.symm hone
    | cons y l => rfl

end DTree
end Lambeq
