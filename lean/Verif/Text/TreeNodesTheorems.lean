import Verif.Text.TreeRoundTrip

/-!
# C87: pregroup trees and their lists of words, types and parents
-/

namespace Lambeq
namespace PTree
set_option linter.unusedSimpArgs false
set_option linter.unusedVariables false

/-! ## The lists of a tree -/

/-- C87: `get_nodes` returns every node exactly once, with the nodes of one word in one group, no group empty, and the groups in the order of the sentence. -/
theorem C87_get_nodes (t : PTree) : t.getNodes.flatten.Perm (t.withParents (-1)) ∧ (∀ g ∈ t.getNodes, g ≠ [] ∧ ∀ x ∈ g, ∀ y ∈ g, x.2.ind = y.2.ind) ∧
    t.getNodes.Pairwise (fun g h => ∀ x ∈ g, ∀ y ∈ h, x.2.ind < y.2.ind) := by
  refine ⟨(getNodes_perm t).trans (flat_perm t (-1)), ?_, getNodes_pairwise t⟩
  intro g hg
  obtain ⟨h, i, e⟩ := getNodes_group t g hg
  refine ⟨h, ?_⟩
  intro x hx y hy
  rw [e] at hx hy
  simp only [List.mem_filter, beq_iff_eq] at hx hy
  omega

/-- C87: the lists of words, indices, types and parents are read off the groups. -/
theorem C87_list_entries (t : PTree) (k : Nat) (x : Int × PTree) (g : List (Int × PTree)) (h : t.getNodes[k]? = some (x :: g)) :
    t.getWords[k]? = some x.2.word ∧ t.getWordIndices[k]? = some x.2.ind ∧ t.getParents[k]? = some ((x :: g).map Prod.fst) ∧
      t.getTypes[k]? = some ((x :: g).map (fun y => tyStr y.2.typ)) := by
  simp [getWords, getWordIndices, getParents, getTypes, h]

/-- C87: where the words are numbered 0 to n-1 without repetition, entry `i` of each list belongs to word `i`. -/
theorem C87_lists (t : PTree) (n : Nat) (hn : t.inds.Perm (List.range n)) : t.getWords.length = n ∧ t.getTypes.length = n ∧ t.getParents.length = n ∧
    ∀ par s, (par, s) ∈ t.withParents (-1) → t.getWords[s.ind]? = some s.word ∧ t.getTypes[s.ind]? = some [tyStr s.typ] ∧ t.getParents[s.ind]? = some [par] := by
  refine ⟨?_, ?_, parents_length hn, fun par s h => ⟨words_lookup hn _ h, types_lookup hn _ h, parents_lookup hn _ h⟩⟩
  · rw [getWords_eq hn, List.length_map, flat_length hn]
  · rw [getTypes_eq hn, List.length_map, flat_length hn]

/-! ## Types as strings -/

/-- C87: a non-empty type whose names have no dot and no at sign can be read back from its string. -/
theorem C87_type_strings (t : Ty) (hne : t ≠ []) (h : ∀ o ∈ t, '.' ∉ o.name.toList ∧ '@' ∉ o.name.toList) : strToTy (tyStr t) = t := strToTy_tyStr t ⟨hne, h⟩

example : tyStr [⟨"n", 1⟩, ⟨"s", 0⟩, ⟨"n", -2⟩] = "n.r @ s @ n.l.l".toList := by decide

/-- C87, refuted for the empty type (which `generate_tree` itself gives to nodes in cycles): it is read back as a type with one object called "Ty()". -/
theorem C87_refuted_empty_type : strToTy (tyStr []) = [⟨"Ty()", 0⟩] := by decide

/-- C87, refuted for a name with a dot. -/
theorem C87_refuted_dot : strToTy (tyStr [⟨"n.s", 0⟩]) = [⟨"n", 0⟩] := by decide

/-! ## Trees from lists -/

/-- C87: `generate_tree` on the lists of a tree gives back the tree, up to the order of children. -/
theorem C87_roundtrip_partial (t : PTree) (n : Nat) (hn : t.inds.Perm (List.range n)) (hc : ∀ s ∈ t.subs, CleanTy s.typ) :
    ∃ u, generateTree t.getWords t.getTypes t.getParents = .ok [u] ∧ SameTree t u := roundtrip hn hc

/-- C87: in the result of `generate_tree` every node has the word of its token, and there is a number `j` such that it has the `j`-th type of the token and hangs
below the `j`-th parent of the token; roots are tokens that have the root (-1) among their parents. -/
theorem C87_generate_partial (tokens types parents R) (h : generateTree tokens types parents = .ok R) (r : PTree) (hr : r ∈ R) (par : Int) (s : PTree)
    (hs : (par, s) ∈ r.withParents (-1)) : s.ind < tokens.length ∧ tokens[s.ind]? = some s.word ∧
      ((s = r ∧ par = -1 ∧ -1 ∈ parents.getD s.ind [] ∧ ∃ ty ∈ types.getD s.ind [], s.typ = strToTy ty) ∨
        ∃ (j : Nat) (ty : List Char), (parents.getD s.ind [])[j]? = some par ∧ (types.getD s.ind [])[j]? = some ty ∧ s.typ = strToTy ty) := by
  obtain ⟨H, rfl⟩ := generateTree_ok h
  obtain ⟨⟨c, k0⟩, hc, hr⟩ := List.mem_flatMap.1 hr
  obtain ⟨k, hk, rfl⟩ := List.mem_map.1 hr
  simp only [List.mem_range] at hk
  obtain ⟨ps, hps, hm, _⟩ := mem_kids.1 hc
  have hcl : c < parents.length := (List.getElem?_eq_some_iff.1 hps).1
  have := unfold_nodes H _ 0 c k (-1) rfl (by
    intro m hm
    cases m with
    | zero => simp [upOk] at hm
    | succ m => omega) hcl (par, s) hs
  obtain ⟨h1, h2, h3⟩ := this
  simp only at h1 h2 h3
  have hl : s.ind < tokens.length := by rw [H.ltok]; exact h1
  refine ⟨hl, ?_, ?_⟩
  · rw [h2, List.getD_eq_getElem?_getD, List.getElem?_eq_getElem hl]; rfl
  · have hty : types[s.ind]? = some (types[s.ind]'(by rw [H.ltyp]; exact h1)) := List.getElem?_eq_getElem _
    have hpa : parents[s.ind]? = some parents[s.ind] := List.getElem?_eq_getElem h1
    have hj : ∀ (j : Nat), (parents.getD s.ind [])[j]? = some par → s.typ = strToTy ((types.getD s.ind []).getD j []) →
        ∃ (j : Nat) (ty : List Char), (parents.getD s.ind [])[j]? = some par ∧ (types.getD s.ind [])[j]? = some ty ∧ s.typ = strToTy ty := by
      intro j e1 e2
      have hlen := H.lens s.ind _ _ hty hpa
      have e1' := e1
      rw [List.getD_eq_getElem?_getD, hpa, Option.getD_some] at e1'
      have hjl := (List.getElem?_eq_some_iff.1 e1').1
      refine ⟨j, (types[s.ind]'(by rw [H.ltyp]; exact h1))[j]'(by omega), e1, ?_, ?_⟩
      · rw [List.getD_eq_getElem?_getD, hty, Option.getD_some, List.getElem?_eq_getElem]
      · rw [e2]
        congr 1
        rw [List.getD_eq_getElem?_getD (l := types), hty, Option.getD_some, List.getD_eq_getElem?_getD, List.getElem?_eq_getElem (by omega)]
        rfl
    rcases mem_withParents hs with e | ⟨s', hs', hcm, e⟩
    · left
      injection e with e1 e2
      subst e1
      have ei : s.ind = c := by rw [e2]; exact unfold_ind _ _ _
      refine ⟨e2, rfl, ?_, ?_⟩
      · rw [ei, List.getD_eq_getElem?_getD, hps]; exact hm
      · rcases h3 with ⟨_, _, e3⟩ | ⟨j, h4, h5⟩
        · refine ⟨(types.getD c []).getD k [], ?_, e3⟩
          rw [ei, List.getD_eq_getElem?_getD (l := types.getD c []), List.getElem?_eq_getElem hk]
          exact List.getElem_mem hk
        · obtain ⟨j, ty, _, h6, h7⟩ := hj j h4 h5
          exact ⟨ty, List.mem_of_getElem? h6, h7⟩
    · right
      rcases h3 with ⟨e3, _⟩ | ⟨j, h4, h5⟩
      · exfalso; simp only at e; omega
      · exact hj j h4 h5

/-- C87: if no token has a parent twice, every parent of every token shows up: there is a node for the token with the type of the same number. -/
theorem C87_generate_all (tokens types parents R) (h : generateTree tokens types parents = .ok R) (hn : ∀ ps ∈ parents, ps.Nodup) (i k : Nat) (par : Int)
    (hp : (parents.getD i [])[k]? = some par) : ∃ r ∈ R, ∃ s ∈ r.subs, s.ind = i ∧ s.typ = strToTy ((types.getD i []).getD k []) := by
  obtain ⟨H, rfl⟩ := generateTree_ok h
  have hps : ∃ ps, parents[i]? = some ps := by
    cases e : parents[i]? with
    | none => simp [List.getD_eq_getElem?_getD, e] at hp
    | some ps => exact ⟨ps, rfl⟩
  obtain ⟨ps, hps⟩ := hps
  rw [List.getD_eq_getElem?_getD, hps, Option.getD_some] at hp
  have hi : i < parents.length := (List.getElem?_eq_some_iff.1 hps).1
  have hk : k < ps.length := (List.getElem?_eq_some_iff.1 hp).1
  obtain ⟨r, hr, f, d, hfd, hd, hs⟩ := occurs H hn _ i k (H.up i hi) ps hps hk
  refine ⟨r, hr, _, hs, unfold_ind _ _ _, ?_⟩
  have := hd _ (H.up i hi)
  obtain ⟨f, rfl⟩ : ∃ f', f = f' + 1 := ⟨f - 1, by omega⟩
  rfl

/-- C87: where every token has one parent and one type, the trees together have every token exactly once. -/
theorem C87_generate_single (tokens types parents R) (h : generateTree tokens types parents = .ok R) (h1 : ∀ ps ∈ parents, ps.length = 1)
    (h2 : ∀ tys ∈ types, tys.length = 1) : (R.flatMap inds).Perm (List.range tokens.length) := by
  obtain ⟨H, rfl⟩ := generateTree_ok h
  rw [H.ltok]
  refine all_inds (par := fun i => (parents.getD i []).headD 0) ?_ H h2
  intro i hi
  obtain ⟨p, hp⟩ := List.length_eq_one_iff.1 (h1 _ (List.getElem_mem hi))
  rw [List.getD_eq_getElem?_getD, List.getElem?_eq_getElem hi, Option.getD_some, hp]; rfl

/-- C87: parents out of bounds, and tokens that are their own parents, are refused. -/
theorem C87_generate_errors (tokens types parents) (h : (∃ ps ∈ parents, ∃ p ∈ ps, p < -1 ∨ (parents.length : Int) ≤ p) ∨
    ∃ (i : Nat) (ps : List Int), parents[i]? = some ps ∧ (i : Int) ∈ ps) : generateTree tokens types parents = .error .valueError := by
  rw [generateTree, if_pos]
  rw [Bool.or_eq_true]
  rcases h with ⟨ps, hps, p, hp, h⟩ | ⟨i, ps, hi, hm⟩
  · left
    rw [outOfBounds, List.any_eq_true]
    refine ⟨ps, hps, List.any_eq_true.2 ⟨p, hp, ?_⟩⟩
    simp; omega
  · right
    obtain ⟨hl, hi⟩ := List.getElem?_eq_some_iff.1 hi
    rw [selfParent, List.any_eq_true]
    exact ⟨_, List.mem_mapIdx.2 ⟨i, hl, rfl⟩, by simp [hi, hm]⟩

/-- C87: where the checks pass (indices in bounds, no token below itself, at least one parent each) there is a result: at least as many types as parents
suffices. -/
theorem C87_generate_succeeds (tokens types parents) (hb : ∀ ps ∈ parents, ps ≠ [] ∧ ∀ p ∈ ps, -1 ≤ p ∧ p < parents.length)
    (h1 : tokens.length = parents.length) (h2 : types.length = parents.length)
    (h3 : ∀ (i : Nat) (tys : List (List Char)) (ps : List Int), types[i]? = some tys → parents[i]? = some ps → ps.length ≤ tys.length)
    (depth : Nat → Nat) (hd : ∀ (i : Nat) (ps : List Int) (p : Nat), parents[i]? = some ps → (p : Int) ∈ ps → depth p < depth i)
    (hdl : ∀ i < parents.length, depth i < parents.length) : ∃ R, generateTree tokens types parents = .ok R := by
  have up : ∀ m i, i < parents.length → depth i < m → upOk parents m i = true := by
    intro m
    induction m with
    | zero => intro i _ h; omega
    | succ m ih =>
      intro i hi hm
      rw [upOk, List.getElem?_eq_getElem hi]
      simp only [List.all_eq_true, Bool.or_eq_true]
      intro p hp
      by_cases e : p = -1
      · left; simp [e]
      · right
        have := (hb _ (List.getElem_mem hi)).2 p hp
        have hd' := hd i _ p.toNat (List.getElem?_eq_getElem hi) (by rwa [Int.toNat_of_nonneg (by omega)])
        exact ih _ (by omega) (by omega)
  refine ⟨_, checked_ok ⟨fun ps hps => (hb ps hps).2, ?_, h1, h2, h3, fun ps hps => (hb ps hps).1, fun i hi => up _ i hi (hdl i hi)⟩⟩
  intro i ps hi hm
  exact absurd (hd i ps i hi hm) (lt_irrefl _)

/-! ## Merging a node with its child -/

theorem getWords_sorted (t : PTree) (h : t.inds.Nodup) (l : List (Nat × String)) (hl : l.Pairwise (fun a b => a.1 < b.1))
    (hp : l.Perm (t.subs.map (fun s => (s.ind, s.word)))) : t.getWords = l.map Prod.snd := by
  have e1 : t.getWords = ((t.flat (-1)).map (fun x => (x.2.ind, x.2.word))).map Prod.snd := by
    rw [getWords, getNodes_nodup t h, List.map_map, List.map_map]; rfl
  rw [e1]
  congr 1
  refine List.Perm.eq_of_pairwise (le := fun a b : Nat × String => a.1 < b.1) (fun a b _ _ h1 h2 => by omega) ?_ hl ?_
  · rw [List.pairwise_map]; exact flat_strict t (-1) h
  · refine List.Perm.trans ?_ hp.symm
    rw [← withParents_map t (-1), List.map_map]
    exact (flat_perm t (-1)).map _

theorem intercalate_merge (A B : List String) (x y : String) :
    String.intercalate " " (A ++ x :: y :: B) = String.intercalate " " (A ++ (x ++ " " ++ y) :: B) := by
  induction A with
  | nil =>
    rw [List.nil_append, List.nil_append, String.intercalate_cons_of_ne_nil (by simp)]
    cases B with
    | nil => simp [String.append_assoc]
    | cons b B =>
      rw [String.intercalate_cons_of_ne_nil (l := b :: B) (by simp), String.intercalate_cons_of_ne_nil (l := b :: B) (by simp)]
      simp only [String.append_assoc]
  | cons a A ih =>
    rw [List.cons_append, List.cons_append, String.intercalate_cons_of_ne_nil (by simp), String.intercalate_cons_of_ne_nil (by simp), ih]

/-- sorting numbers around a gap -/
theorem split_sorted (R : List (Nat × String)) (lo : Nat) (h : (R.map Prod.fst).Nodup) (h1 : lo ∉ R.map Prod.fst) (h2 : lo + 1 ∉ R.map Prod.fst) :
    ∃ A B : List (Nat × String), (A ++ B).Perm R ∧ (A ++ B).Pairwise (fun a b => a.1 < b.1) ∧ (∀ a ∈ A, a.1 < lo) ∧ ∀ b ∈ B, lo + 1 < b.1 := by
  have : Std.Total (fun a b : Nat × String => a.1 ≤ b.1) := ⟨fun a b => le_total _ _⟩
  have : IsTrans (Nat × String) (fun a b => a.1 ≤ b.1) := ⟨fun a b c h1 h2 => le_trans h1 h2⟩
  have hp := List.perm_insertionSort (fun a b : Nat × String => a.1 ≤ b.1) R
  have hs := List.pairwise_insertionSort (fun a b : Nat × String => a.1 ≤ b.1) R
  generalize hS : R.insertionSort (fun a b : Nat × String => a.1 ≤ b.1) = S at hp hs
  have hnd := (hp.map Prod.fst).nodup_iff.2 h
  rw [List.Nodup, List.pairwise_map] at hnd
  have hst : S.Pairwise (fun a b => a.1 < b.1) := (hs.and hnd).imp (fun h => lt_of_le_of_ne h.1 h.2)
  have hne : ∀ a ∈ S, a.1 ≠ lo ∧ a.1 ≠ lo + 1 := by
    intro a ha
    have := hp.mem_iff.1 ha
    exact ⟨fun e => h1 (List.mem_map.2 ⟨a, this, e⟩), fun e => h2 (List.mem_map.2 ⟨a, this, e⟩)⟩
  refine ⟨S.filter (fun a => decide (a.1 < lo)), S.filter (fun a => !decide (a.1 < lo)), (List.filter_append_perm _ _).trans hp, ?_, ?_, ?_⟩
  · rw [List.pairwise_append]
    refine ⟨hst.filter _, hst.filter _, ?_⟩
    intro a ha b hb
    simp at ha hb
    omega
  · intro a ha; simp at ha; exact ha.2
  · intro b hb
    simp at hb
    have := hne b (hp.mem_iff.2 (hp.mem_iff.1 hb.1))
    omega

/-- C87: merging a node with its only child, of the same type and next to it in the sentence, gives one node with the lower index, the type of both and the children
of the child; the text of the sentence is kept. -/
theorem C87_merge (w w' : String) (i i' : Nat) (ty : Ty) (cs : List PTree) (hn : (node w i ty [node w' i' ty cs]).inds.Nodup) (hi : i' = i + 1 ∨ i = i' + 1) :
    ∃ v, merge (node w i ty [node w' i' ty cs]) = node v (min i i') ty cs ∧ (node v (min i i') ty cs).inds.Nodup ∧
      String.intercalate " " (node v (min i i') ty cs).getWords = String.intercalate " " (node w i ty [node w' i' ty cs]).getWords := by
  have hin : i :: i' :: cs.flatMap inds = (node w i ty [node w' i' ty cs]).inds := by rw [inds_node]; simp [inds_node]
  rw [← hin] at hn
  have hn0 := hn
  rw [List.nodup_cons, List.nodup_cons] at hn
  simp only [List.mem_cons, not_or] at hn
  obtain ⟨⟨hne, hi1⟩, hi2, hnr⟩ := hn
  let R : List (Nat × String) := (cs.flatMap subs).map (fun s => (s.ind, s.word))
  have hR : R.map Prod.fst = cs.flatMap inds := by
    simp only [R, List.map_map, List.map_flatMap]; rfl
  have hlo : min i i' ∉ cs.flatMap inds := by
    rcases hi with h | h
    · rw [show min i i' = i by omega]; exact hi1
    · rw [show min i i' = i' by omega]; exact hi2
  have hhi : min i i' + 1 ∉ cs.flatMap inds := by
    rcases hi with h | h
    · rw [show min i i' + 1 = i' by omega]; exact hi2
    · rw [show min i i' + 1 = i by omega]; exact hi1
  obtain ⟨A, B, hp, hs, hA, hB⟩ := split_sorted R (min i i') (by rw [hR]; exact hnr)
    (by rw [hR]; exact hlo) (by rw [hR]; exact hhi)
  let a : String := if i < i' then w else w'
  let b : String := if i < i' then w' else w
  have hv : merge (node w i ty [node w' i' ty cs]) = node (a ++ " " ++ b) (min i i') ty cs := by
    rw [merge, if_pos ⟨rfl, by omega⟩]
    simp only [a, b]
    split <;> rfl
  have hnd : (node (a ++ " " ++ b) (min i i') ty cs).inds.Nodup := by
    rw [inds_node, List.nodup_cons]
    exact ⟨hlo, hnr⟩
  refine ⟨a ++ " " ++ b, hv, hnd, ?_⟩
  rw [List.pairwise_append] at hs
  rw [getWords_sorted _ hnd (A ++ (min i i', a ++ " " ++ b) :: B), getWords_sorted _ (hin ▸ hn0) (A ++ (min i i', a) :: (min i i' + 1, b) :: B)]
  · rw [List.map_append, List.map_append, List.map_cons, List.map_cons, List.map_cons, intercalate_merge]
  · rw [List.pairwise_append, List.pairwise_cons, List.pairwise_cons]
    refine ⟨hs.1, ⟨?_, ?_, hs.2.1⟩, ?_⟩
    · intro x hx
      rcases List.mem_cons.1 hx with rfl | hx
      · exact Nat.lt_succ_self _
      · have := hB x hx; simp only; omega
    · intro x hx; exact hB x hx
    · intro x hx y hy
      have h1 := hA x hx
      rcases List.mem_cons.1 hy with rfl | hy
      · exact h1
      · rcases List.mem_cons.1 hy with rfl | hy
        · simp only; omega
        · have := hB y hy; omega
  · have e : (node w i ty [node w' i' ty cs]).subs.map (fun s => (s.ind, s.word)) = (i, w) :: (i', w') :: R := by
      simp [subs_node, R, ind, word]
    rw [e]
    refine (List.perm_middle.trans (List.Perm.cons _ List.perm_middle)).trans ?_
    refine List.Perm.trans ((hp.cons _).cons _) ?_
    rcases hi with h | h
    · have : i < i' := by omega
      simp [a, b, this, h]
    · have : ¬ i < i' := by omega
      simp only [a, b, this, if_false]
      rw [show min i i' = i' by omega, ← h]
      exact List.Perm.swap _ _ _
  · rw [List.pairwise_append, List.pairwise_cons]
    refine ⟨hs.1, ⟨?_, hs.2.1⟩, ?_⟩
    · intro x hx; have := hB x hx; simp only; omega
    · intro x hx y hy
      have h1 := hA x hx
      rcases List.mem_cons.1 hy with rfl | hy
      · exact h1
      · have := hB y hy; omega
  · have e : (node (a ++ " " ++ b) (min i i') ty cs).subs.map (fun s => (s.ind, s.word)) = (min i i', a ++ " " ++ b) :: R := by
      simp [subs_node, R, ind, word]
    rw [e]
    exact List.perm_middle.trans (hp.cons _)

/-- C87: otherwise `merge` leaves the node alone. -/
theorem C87_merge_not (w : String) (i : Nat) (ty : Ty) (cs : List PTree)
    (h : cs.length ≠ 1 ∨ ∃ c, cs = [c] ∧ (c.typ ≠ ty ∨ (c.ind ≠ i + 1 ∧ i ≠ c.ind + 1))) : merge (node w i ty cs) = node w i ty cs := by
  match cs, h with
  | [], _ => rfl
  | [node w' i' t' cs'], h =>
    rcases h with h | ⟨c, hc, h⟩
    · simp at h
    · simp at hc; subst hc
      simp only [typ, ind] at h
      rw [merge, if_neg]
      rintro ⟨rfl, h2⟩
      rcases h with h | h
      · exact h rfl
      · omega
  | node _ _ _ _ :: _ :: _, _ => rfl

/-! ## Witnesses -/

/-- "the old man sleeps" with `man` below `sleeps` -/
def manTree : PTree := node "sleeps" 3 [⟨"s", 0⟩] [node "man" 2 [⟨"n", 0⟩] [node "old" 1 [⟨"n", 0⟩] [], node "the" 0 [⟨"n", 0⟩] []]]

example : manTree.getWords = ["the", "old", "man", "sleeps"] := by decide
example : manTree.getParents = [[2], [2], [3], [-1]] := by decide
example : manTree.getTypes = [["n".toList], ["n".toList], ["n".toList], ["s".toList]] := by decide
example : manTree.inds.Perm (List.range 4) := by decide
example : ∀ s ∈ manTree.subs, CleanTy s.typ := by
  intro s hs
  rw [manTree, subs_node] at hs
  simp [subs_node] at hs
  rcases hs with rfl | rfl | rfl | rfl <;> exact ⟨by simp [typ], by simp [typ]⟩

/-- A token with two parents: it has two nodes, with the types in the order of the parents. -/
example : generateTree ["a", "b", "c"] [["s".toList], ["n".toList, "n.r".toList], ["s".toList]] [[-1], [0, 2], [0]] =
    .ok [node "a" 0 [⟨"s", 0⟩] [node "b" 1 [⟨"n", 0⟩] [], node "c" 2 [⟨"s", 0⟩] [node "b" 1 [⟨"n", 1⟩] []]]] := by
  rfl

/-- C87, refuted: after a merge the list of parents still has the old indices, but its positions are new. The lists of "a b c d" with `b`, `c` merged and `d` below
them make a token its own parent, and `generate_tree` refuses them. -/
theorem C87_refuted_after_merge :
    let t := node "a" 0 [⟨"s", 0⟩] [merge (node "b" 1 [⟨"n", 0⟩] [node "c" 2 [⟨"n", 0⟩] [node "d" 3 [⟨"n", 0⟩] [node "e" 4 [⟨"n", 0⟩] []]]])]
    t.getWords = ["a", "b c", "d", "e"] ∧ t.getParents = [[-1], [0], [1], [3]] ∧
      generateTree t.getWords t.getTypes t.getParents = .error .valueError := by
  refine ⟨by decide, by decide, ?_⟩
  apply C87_generate_errors
  right
  exact ⟨3, [3], by decide, by decide⟩

/-- C87, refuted where a token has the same parent twice: the second node takes the place of the first one, and what hangs below the first one is lost. -/
theorem C87_refuted_repeated_parent : ∃ r, generateTree ["a", "b", "c"] [["s".toList], ["n".toList, "n".toList], ["n".toList]] [[-1], [0, 0], [1]] = .ok [r] ∧
    2 ∉ r.inds := ⟨node "a" 0 [⟨"s", 0⟩] [node "b" 1 [⟨"n", 0⟩] []], rfl, by decide⟩

end PTree
end Lambeq
