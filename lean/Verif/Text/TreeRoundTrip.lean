import Verif.Text.TreeGenerate

/-!
# From a tree to lists and back: proofs (C87)
-/

namespace Lambeq
namespace PTree
set_option linter.unusedSimpArgs false
set_option linter.unusedVariables false

theorem mem_withParents {t : PTree} {par : Int} {x : Int × PTree} (hx : x ∈ t.withParents par) :
    x = (par, t) ∨ ∃ s ∈ t.subs, x.2 ∈ s.children ∧ x.1 = s.ind := by
  induction t using ind' generalizing par with
  | H w i t cs ih =>
    rw [withParents_node] at hx
    rcases List.mem_cons.1 hx with hx | hx
    · exact .inl hx
    · right
      obtain ⟨c, hc, hx⟩ := List.mem_flatMap.1 hx
      rcases ih c hc hx with rfl | ⟨s, hs, h⟩
      · exact ⟨_, self_mem_subs _, hc, rfl⟩
      · refine ⟨s, ?_, h⟩
        rw [subs_node]
        exact List.mem_cons_of_mem _ (List.mem_flatMap.2 ⟨c, hc, hs⟩)

theorem child_withParents {t : PTree} {par : Int} {s c : PTree} (hs : s ∈ t.subs) (hc : c ∈ s.children) : ((s.ind : Int), c) ∈ t.withParents par := by
  induction t using ind' generalizing par with
  | H w i t cs ih =>
    rw [withParents_node]
    rw [subs_node] at hs
    refine List.mem_cons_of_mem _ ?_
    rcases List.mem_cons.1 hs with hs | hs
    · subst hs
      refine List.mem_flatMap.2 ⟨c, hc, ?_⟩
      obtain ⟨w', i', t', cs'⟩ := c
      rw [withParents_node]; simp [ind]
    · obtain ⟨d, hd, hs⟩ := List.mem_flatMap.1 hs
      exact List.mem_flatMap.2 ⟨d, hd, ih d hd hs⟩

theorem inds_sub {s t : PTree} (hs : s ∈ t.subs) : s.inds.Sublist t.inds := by
  induction t using ind' with
  | H w i t cs ih =>
    rw [subs_node] at hs
    rcases List.mem_cons.1 hs with hs | hs
    · subst hs; exact List.Sublist.refl _
    · obtain ⟨d, hd, hs⟩ := List.mem_flatMap.1 hs
      refine (ih d hd hs).trans ?_
      rw [inds_node]
      refine List.Sublist.cons _ ?_
      show d.inds.Sublist ((cs.map inds).flatten)
      exact List.sublist_flatten_of_mem (List.mem_map.2 ⟨d, hd, rfl⟩)

theorem children_inds (s : PTree) : (s.ind :: s.children.map ind).Sublist s.inds := by
  obtain ⟨w, i, t, cs⟩ := s
  rw [inds_node]
  refine List.Sublist.cons_cons _ ?_
  simp only [children]
  induction cs with
  | nil => simp
  | cons c cs ih =>
    rw [List.map_cons, List.flatMap_cons]
    refine List.Sublist.append (l₁ := [c.ind]) ?_ ih
    exact List.singleton_sublist.2 (ind_mem_inds c)

theorem sub_unique {t s s' : PTree} (h : t.inds.Nodup) (hs : s ∈ t.subs) (hs' : s' ∈ t.subs) (e : s.ind = s'.ind) : s = s' :=
  List.inj_on_of_nodup_map h hs hs' e

theorem le_levelss {cs : List PTree} {c : PTree} (h : c ∈ cs) : c.levels ≤ levelss cs := by
  induction cs with
  | nil => simp at h
  | cons d cs ih =>
    rw [levelss]
    rcases List.mem_cons.1 h with rfl | h
    · exact le_max_left _ _
    · exact le_trans (ih h) (le_max_right _ _)

theorem levels_le (t : PTree) : t.levels ≤ t.subs.length := by
  induction t using ind' with
  | H w i t cs ih =>
    rw [levels, subs_node, List.length_cons]
    refine Nat.succ_le_succ ?_
    induction cs with
    | nil => simp [levelss]
    | cons c cs ihc =>
      rw [levelss, List.flatMap_cons, List.length_append]
      have h1 := ih c (by simp)
      have h2 := ihc (fun d hd => ih d (List.mem_cons_of_mem _ hd))
      omega

theorem up_tree (parents : List (List Int)) (t : PTree) (par : Int) (k : Nat) (hpar : par = -1 ∨ upOk parents k par.toNat = true)
    (hl : ∀ x ∈ t.withParents par, parents[x.2.ind]? = some [x.1]) : ∀ s ∈ t.subs, upOk parents (k + t.levels) s.ind = true := by
  induction t using ind' generalizing par k with
  | H w i t cs ih =>
    have h0 : upOk parents (k + 1) i = true := by
      have := hl (par, node w i t cs) (by rw [withParents_node]; simp)
      rw [upOk]
      simp only [ind] at this
      rw [this]
      rcases hpar with h | h
      · simp [h]
      · simp [h]
    intro s hs
    rw [subs_node] at hs
    rw [levels]
    rcases List.mem_cons.1 hs with hs | hs
    · subst hs
      exact upOk_mono (by omega) h0
    · obtain ⟨c, hc, hs⟩ := List.mem_flatMap.1 hs
      have := ih c hc (i : Int) (k + 1) (.inr (by simpa using h0)) (fun x hx => hl x (by
        rw [withParents_node]; exact List.mem_cons_of_mem _ (List.mem_flatMap.2 ⟨c, hc, hx⟩))) s hs
      exact upOk_mono (by have := le_levelss hc; omega) this

section
variable {t : PTree} {n : Nat} (hn : t.inds.Perm (List.range n))
include hn

theorem flat_range : (t.flat (-1)).map (fun x => x.2.ind) = List.range n := by
  have h := flat_strict t (-1) (hn.nodup_iff.2 List.nodup_range)
  refine List.Perm.eq_of_pairwise (le := (· < ·)) ?_ (List.pairwise_map.2 h) List.pairwise_lt_range ((flat_inds t (-1)).trans hn)
  intro a b _ _ h1 h2; omega

theorem flat_length : (t.flat (-1)).length = n := by
  have := congrArg List.length (flat_range hn)
  simpa using this

theorem flat_lookup (x : Int × PTree) (hx : x ∈ t.withParents (-1)) : (t.flat (-1))[x.2.ind]? = some x := by
  obtain ⟨j, hj, e⟩ := List.getElem_of_mem ((flat_perm t (-1)).mem_iff.2 hx)
  have h2 : ((t.flat (-1)).map (fun x => x.2.ind))[j]? = some j := by
    rw [flat_range hn, List.getElem?_range]
    rw [← flat_length hn]; exact hj
  rw [List.getElem?_map, List.getElem?_eq_getElem hj, e] at h2
  simp at h2
  rw [h2, List.getElem?_eq_getElem hj, e]

theorem flat_get (i : Nat) (hi : i < n) : ∃ x ∈ t.withParents (-1), x.2.ind = i ∧ (t.flat (-1))[i]? = some x := by
  have hj : i < (t.flat (-1)).length := by rw [flat_length hn]; exact hi
  have hx := (flat_perm t (-1)).mem_iff.1 (List.getElem_mem hj)
  refine ⟨_, hx, ?_, List.getElem?_eq_getElem hj⟩
  have h2 : ((t.flat (-1)).map (fun x => x.2.ind))[i]? = some i := by
    rw [flat_range hn, List.getElem?_range hi]
  rw [List.getElem?_map, List.getElem?_eq_getElem hj] at h2
  simpa using h2

theorem getParents_eq : t.getParents = (t.flat (-1)).map (fun x => [x.1]) := by
  rw [getParents, getNodes_nodup t (hn.nodup_iff.2 List.nodup_range), List.map_map]; rfl
theorem getTypes_eq : t.getTypes = (t.flat (-1)).map (fun x => [tyStr x.2.typ]) := by
  rw [getTypes, getNodes_nodup t (hn.nodup_iff.2 List.nodup_range), List.map_map]; rfl
theorem getWords_eq : t.getWords = (t.flat (-1)).map (fun x => x.2.word) := by
  rw [getWords, getNodes_nodup t (hn.nodup_iff.2 List.nodup_range), List.map_map]; rfl

theorem parents_length : t.getParents.length = n := by rw [getParents_eq hn, List.length_map, flat_length hn]

theorem parents_lookup (x : Int × PTree) (hx : x ∈ t.withParents (-1)) : t.getParents[x.2.ind]? = some [x.1] := by
  rw [getParents_eq hn, List.getElem?_map, flat_lookup hn x hx]; rfl
theorem types_lookup (x : Int × PTree) (hx : x ∈ t.withParents (-1)) : t.getTypes[x.2.ind]? = some [tyStr x.2.typ] := by
  rw [getTypes_eq hn, List.getElem?_map, flat_lookup hn x hx]; rfl
theorem words_lookup (x : Int × PTree) (hx : x ∈ t.withParents (-1)) : t.getWords[x.2.ind]? = some x.2.word := by
  rw [getWords_eq hn, List.getElem?_map, flat_lookup hn x hx]; rfl

theorem subs_withParents {s : PTree} (hs : s ∈ t.subs) : ∃ q, (q, s) ∈ t.withParents (-1) := by
  rw [← withParents_map t (-1)] at hs
  obtain ⟨⟨q, s⟩, h, rfl⟩ := List.mem_map.1 hs
  exact ⟨q, h⟩

theorem round_checked : Checked t.getWords t.getTypes t.getParents := by
  have hnd : t.inds.Nodup := hn.nodup_iff.2 List.nodup_range
  have hmem : ∀ ps ∈ t.getParents, ∃ x ∈ t.withParents (-1), ps = [x.1] := by
    intro ps hps
    rw [getParents_eq hn] at hps
    obtain ⟨x, hx, rfl⟩ := List.mem_map.1 hps
    exact ⟨x, (flat_perm t (-1)).mem_iff.1 hx, rfl⟩
  refine ⟨?_, ?_, ?_, ?_, ?_, ?_, ?_⟩
  · intro ps hps p hp
    obtain ⟨x, hx, rfl⟩ := hmem ps hps
    simp at hp; subst hp
    rw [parents_length hn]
    rcases mem_withParents hx with rfl | ⟨s, hs, hc, e⟩
    · simp; omega
    · have : s.ind ∈ List.range n := hn.mem_iff.1 (List.mem_map.2 ⟨s, hs, rfl⟩)
      rw [List.mem_range] at this
      omega
  · intro i ps hi hm
    have hil : i < n := by rw [← parents_length hn]; exact (List.getElem?_eq_some_iff.1 hi).1
    obtain ⟨x, hx, e, _⟩ := flat_get hn i hil
    have h2 := parents_lookup hn x hx
    rw [e, hi] at h2
    simp at h2; subst h2
    simp at hm
    rcases mem_withParents hx with rfl | ⟨s, hs, hc, e'⟩
    · simp at hm
    · have h3 := (hnd.sublist (inds_sub hs)).sublist (children_inds s)
      rw [List.nodup_cons] at h3
      exact h3.1 (List.mem_map.2 ⟨x.2, hc, by omega⟩)
  · rw [parents_length hn, getWords_eq hn, List.length_map, flat_length hn]
  · rw [parents_length hn, getTypes_eq hn, List.length_map, flat_length hn]
  · intro i tys ps h1 h2
    rw [getTypes_eq hn, List.getElem?_map] at h1
    rw [getParents_eq hn, List.getElem?_map] at h2
    cases h : (t.flat (-1))[i]? with
    | none => simp [h] at h1
    | some x => simp [h] at h1 h2; subst h1 h2; simp
  · intro ps hps
    obtain ⟨x, hx, rfl⟩ := hmem ps hps
    simp
  · intro i hi
    rw [parents_length hn] at hi ⊢
    obtain ⟨x, hx, e, _⟩ := flat_get hn i hi
    have hs : x.2 ∈ t.subs := by rw [← withParents_map t (-1)]; exact List.mem_map.2 ⟨x, hx, rfl⟩
    have := up_tree t.getParents t (-1) 0 (.inl rfl) (parents_lookup hn) x.2 hs
    rw [e] at this
    refine upOk_mono ?_ this
    have h1 := levels_le t
    have h2 := hn.length_eq
    rw [inds, List.length_map, List.length_range] at h2
    omega

theorem kids_eq {s : PTree} (hs : s ∈ t.subs) : kids t.getParents s.ind = (s.children.insertionSort (fun a b => a.ind ≤ b.ind)).map (fun c => (c.ind, 0)) := by
  have hnd : t.inds.Nodup := hn.nodup_iff.2 List.nodup_range
  have hcn : (s.children.map ind).Nodup := (List.nodup_cons.1 ((hnd.sublist (inds_sub hs)).sublist (children_inds s))).2
  have : Std.Total (fun a b : PTree => a.ind ≤ b.ind) := ⟨fun a b => le_total _ _⟩
  have : IsTrans PTree (fun a b => a.ind ≤ b.ind) := ⟨fun a b c h1 h2 => le_trans h1 h2⟩
  have hp := List.perm_insertionSort (fun a b : PTree => a.ind ≤ b.ind) s.children
  have hsort : (s.children.insertionSort (fun a b => a.ind ≤ b.ind)).Pairwise (fun a b => a.ind < b.ind) := by
    have h1 := List.pairwise_insertionSort (fun a b : PTree => a.ind ≤ b.ind) s.children
    have h2 := (hp.map ind).nodup_iff.2 hcn
    rw [List.Nodup, List.pairwise_map] at h2
    exact (h1.and h2).imp (fun h => lt_of_le_of_ne h.1 h.2)
  have hp1 := kids_pairwise t.getParents s.ind
  have hp2 : ((s.children.insertionSort (fun a b => a.ind ≤ b.ind)).map (fun c => (c.ind, 0))).Pairwise (fun a b => a.1 < b.1) := by
    rw [List.pairwise_map]; exact hsort
  refine List.Perm.eq_of_pairwise (le := fun a b : Nat × Nat => a.1 < b.1) (fun a b _ _ h1 h2 => by omega) hp1 hp2 ?_
  rw [List.perm_ext_iff_of_nodup (hp1.imp (fun h e => by subst e; omega)) (hp2.imp (fun h e => by subst e; omega))]
  rintro ⟨c, k⟩
  rw [mem_kids, List.mem_map]
  constructor
  · rintro ⟨ps, h1, h2, rfl⟩
    have hil : c < n := by rw [← parents_length hn]; exact (List.getElem?_eq_some_iff.1 h1).1
    obtain ⟨x, hx, e, _⟩ := flat_get hn c hil
    have h3 := parents_lookup hn x hx
    rw [e, h1] at h3
    simp at h3; subst h3
    simp at h2
    refine ⟨x.2, ?_, by simp [e]⟩
    rw [hp.mem_iff]
    rcases mem_withParents hx with rfl | ⟨s', hs', hc, e'⟩
    · simp at h2
    · have := sub_unique hnd hs hs' (by omega)
      rw [this]; exact hc
  · rintro ⟨d, hd, e⟩
    simp at e
    obtain ⟨rfl, rfl⟩ := e
    rw [hp.mem_iff] at hd
    exact ⟨[(s.ind : Int)], parents_lookup hn _ (child_withParents hs hd), by simp, by simp⟩

theorem kids_root : kids t.getParents (-1) = [(t.ind, 0)] := by
  have hp1 := kids_pairwise t.getParents (-1)
  refine List.Perm.eq_of_pairwise (le := fun a b : Nat × Nat => a.1 < b.1) (fun a b _ _ h1 h2 => by omega) hp1 (by simp) ?_
  rw [List.perm_ext_iff_of_nodup (hp1.imp (fun h e => by subst e; omega)) (by simp)]
  rintro ⟨c, k⟩
  have h0 : ((-1 : Int), t) ∈ t.withParents (-1) := by
    obtain ⟨w, i, ty, cs⟩ := t; rw [withParents_node]; simp
  rw [mem_kids, List.mem_singleton]
  constructor
  · rintro ⟨ps, h1, h2, rfl⟩
    have hil : c < n := by rw [← parents_length hn]; exact (List.getElem?_eq_some_iff.1 h1).1
    obtain ⟨x, hx, e, _⟩ := flat_get hn c hil
    have h3 := parents_lookup hn x hx
    rw [e, h1] at h3
    simp at h3; subst h3
    simp at h2
    rcases mem_withParents hx with rfl | ⟨s', hs', hc, e'⟩
    · simp [← e]
    · omega
  · intro e
    simp at e
    obtain ⟨rfl, rfl⟩ := e
    exact ⟨[-1], parents_lookup hn _ h0, by simp, by simp⟩

theorem round_unfold (hc : ∀ s ∈ t.subs, CleanTy s.typ) (s : PTree) (hs : s ∈ t.subs) (m : Nat) (hm : s.levels ≤ m) :
    SameTree s (unfold t.getWords t.getTypes t.getParents m s.ind 0) := by
  induction s using ind' generalizing m with
  | H w i ty cs ih =>
    rw [levels] at hm
    obtain ⟨m, rfl⟩ : ∃ m', m = m' + 1 := ⟨m - 1, by omega⟩
    obtain ⟨q, hq⟩ := subs_withParents hn hs
    have hw : t.getWords.getD i "" = w := by
      have : t.getWords[i]? = some w := words_lookup hn _ hq
      rw [List.getD_eq_getElem?_getD, this]; rfl
    have ht : t.getTypes.getD i [] = [tyStr ty] := by
      have : t.getTypes[i]? = some [tyStr ty] := types_lookup hn _ hq
      rw [List.getD_eq_getElem?_getD, this]; rfl
    have hk : kids t.getParents (i : Int) = (cs.insertionSort (fun a b => a.ind ≤ b.ind)).map (fun c => (c.ind, 0)) := kids_eq hn hs
    have he : strToTy (([tyStr ty] : List (List Char)).getD 0 []) = ty := strToTy_tyStr ty (hc _ hs)
    rw [show (node w i ty cs).ind = i from rfl, unfold, if_pos rfl, hk, hw, ht, he, List.map_map]
    refine SameTree.mk w i ty cs _ _ (List.perm_insertionSort (fun a b : PTree => a.ind ≤ b.ind) cs).symm ?_
    rw [List.forall₂_map_right_iff, List.forall₂_same]
    intro c hcm
    have hcm : c ∈ cs := (List.perm_insertionSort (fun a b : PTree => a.ind ≤ b.ind) cs).mem_iff.1 hcm
    have hcs : c ∈ t.subs := subs_trans (by rw [subs_node]; exact List.mem_cons_of_mem _ (List.mem_flatMap.2 ⟨c, hcm, self_mem_subs c⟩)) hs
    exact ih c hcm hcs m (by have := le_levelss hcm; omega)

theorem roundtrip (hc : ∀ s ∈ t.subs, CleanTy s.typ) : ∃ u, generateTree t.getWords t.getTypes t.getParents = .ok [u] ∧ SameTree t u := by
  have h0 : ((-1 : Int), t) ∈ t.withParents (-1) := by
    obtain ⟨w, i, ty, cs⟩ := t; rw [withParents_node]; simp
  have ht := types_lookup hn _ h0
  simp only at ht
  refine ⟨_, ?_, round_unfold hn hc t (self_mem_subs t) (n + 1) ?_⟩
  · rw [checked_ok (round_checked hn), kids_root hn]
    simp only [List.flatMap_cons, List.flatMap_nil, List.append_nil, List.getD_eq_getElem?_getD, ht, Option.getD_some, List.length_singleton, parents_length hn]
    rfl
  · have h1 := levels_le t
    have h2 := hn.length_eq
    rw [inds, List.length_map, List.length_range] at h2
    omega

end

end PTree
end Lambeq
