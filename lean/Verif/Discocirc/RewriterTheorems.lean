import Verif.Discocirc.RewriterProps

/-!
# DisCoCirc: rewriting of pregroup trees and new word indices, the theorems (C90)
-/

namespace Lambeq
open Diagram
set_option linter.unusedSimpArgs false

namespace Disco

/-- The rule for determiners (pregroup_tree_rewriter.py:72-75). -/
def detRule : Rule := ⟨some [noun], fun w => ["a", "an", "the"].contains w, some 1, .last⟩

/-- The rule for modifiers of nouns (pregroup_tree_rewriter.py:84-87). -/
def nounModRule : Rule := ⟨some [noun], fun _ => true, none, .merge⟩

/-- "Alice likes the big dog". -/
def exRw : PTree := .node "likes" 1 [⟨"s", 0⟩] [.node "Alice" 0 [noun] [], .node "the" 2 [noun] [.node "big" 3 [noun] [.node "dog" 4 [noun] []]]]

/-! ## What a rule does -/

/-- C90: let `ch` be the longest chain of nodes from the root down that the rule matches (each with one child, of its own type), and `bw`, `bi`, `bcs` the word, index
and children of the node below the chain. The rewritten tree has, from the root down, the upper nodes of the chain (as many as the chain is longer than `max_depth`; none
without a bound), and then one node, at the position of the node below the chain, whose word joins the words of the other nodes of the chain and `bw` and whose children
are those of that node, rewritten in the same way. -/
theorem C90_edit (r : Rule) (t : PTree) : ∃ ch bw bi bcs, r.chain t = (ch, .node bw bi t.typ bcs) ∧ r.target (.node bw bi t.typ bcs) = none ∧
    t = stack t.typ ch (.node bw bi t.typ bcs) ∧
    r.rewrite t = stack t.typ (ch.take (r.stay ch.length)) (.node (joined r.join (ch.drop (r.stay ch.length)) bw) bi t.typ (bcs.map r.rewrite)) := by
  obtain ⟨ch, bw, bi, bt, bcs, h1, h2, rfl, h4, _⟩ := edit_chain r t
  refine ⟨ch, bw, bi, bcs, h1, h2, ?_, ?_⟩
  · have : ∀ (t : PTree) (ch b), r.chain t = (ch, b) → t = stack t.typ ch b := by
      intro t
      induction t using Rule.chain.induct with
      | r => exact r
      | case1 w i ty c ht ih =>
        intro ch b h
        rw [Rule.chain, if_pos ht] at h
        obtain ⟨rfl, rfl⟩ := Prod.mk.inj h
        obtain ⟨c', hc⟩ := Option.isSome_iff_exists.1 ht
        obtain ⟨e1, _, e2, _⟩ := target_some r hc
        have e1 := (List.cons.inj e1).1
        have e2 := congrArg PTree.typ (ih _ _ rfl)
        have := ih _ _ rfl
        simp only [stack, PTree.typ]
        have ht2 : c.typ = ty := by
          have := target_some r hc
          grind
        rw [ht2] at this
        rw [← this]
      | case2 w i ty c ht =>
        intro ch b h
        rw [Rule.chain, if_neg ht] at h
        obtain ⟨rfl, rfl⟩ := Prod.mk.inj h
        rfl
      | case3 t ht =>
        intro ch b h
        rw [Rule.chain] at h
        · obtain ⟨rfl, rfl⟩ := Prod.mk.inj h
          rfl
        · exact ht
    exact this t _ _ h1
  · rw [Rule.rewrite, h4, edits_eq]
    rfl

example : detRule.chain (.node "the" 2 [noun] [.node "big" 3 [noun] [.node "dog" 4 [noun] []]]) = ([("the", 2)], .node "big" 3 [noun] [.node "dog" 4 [noun] []]) := by
  rfl

/-- C90: the rule for determiners takes "the" out of "Alice likes the big dog". -/
example : preWords (detRule.rewrite exRw) = ["likes", "Alice", "big", "dog"] := by decide +kernel
example : preWords (nounModRule.rewrite exRw) = ["likes", "Alice", "the big dog"] := by decide +kernel

theorem rewriter_ind {P : PTree → PTree → Prop} (h0 : ∀ t, P t t) (ht : ∀ a b c, P a b → P b c → P a c) (rs : List Rule) (h : ∀ r ∈ rs, ∀ t, P t (r.rewrite t)) :
    ∀ t, P t (rewriter rs t) := by
  induction rs with
  | nil => exact h0
  | cons r rs ih =>
    intro t
    rw [rewriter, List.foldl_cons]
    exact ht _ _ _ (h r List.mem_cons_self t) (ih (fun r hr => h r (List.mem_cons_of_mem _ hr)) _)

/-- C90: for any rules, the rewritten tree has the type of the given one at its root, its noun leaves have the same indices in the same order (whatever is pruned), and the
indices of its nodes are among those of the given tree, in the same order. -/
theorem C90_shape (rs : List Rule) (t : PTree) : (rewriter rs t).typ = t.typ ∧
    (∀ p, (nounLeaves p (rewriter rs t)).map Prod.fst = (nounLeaves p t).map Prod.fst) ∧ (preInds (rewriter rs t)).Sublist (preInds t) :=
  rewriter_ind (P := fun t u => u.typ = t.typ ∧ (∀ p, (nounLeaves p u).map Prod.fst = (nounLeaves p t).map Prod.fst) ∧ (preInds u).Sublist (preInds t))
    (fun t => ⟨rfl, fun _ => rfl, List.Sublist.refl _⟩)
    (fun a b c h1 h2 => ⟨h2.1.trans h1.1, fun p => (h2.2.1 p).trans (h1.2.1 p), h2.2.2.trans h1.2.2⟩) rs
    (fun r _ t => ⟨edit_typ r t, fun p => edit_leaves r p t, edit_inds r t⟩) t

example : (nounLeaves [] exRw).map Prod.fst = [0, 4] := by decide +kernel

/-- C90: the rules are applied to the whole tree one after the other, in the order given. -/
theorem C90_rules (t : PTree) : rewriter [] t = t ∧ ∀ (r : Rule) (rs : List Rule), rewriter (r :: rs) t = rewriter rs (r.rewrite t) ∧
    rewriter (rs ++ [r]) t = r.rewrite (rewriter rs t) :=
  ⟨rfl, fun r rs => ⟨rfl, by simp [rewriter]⟩⟩

example : rewriter [detRule, nounModRule] exRw = nounModRule.rewrite (detRule.rewrite exRw) := rfl

/-- C90: where all rules join words by merging, the words of the tree, read from the root down, give the same text before and after. -/
theorem C90_text (rs : List Rule) (hr : ∀ r ∈ rs, r.join = .merge) (t : PTree) : spaced (preWords (rewriter rs t)) = spaced (preWords t) :=
  rewriter_ind (P := fun t u => spaced (preWords u) = spaced (preWords t)) (fun _ => rfl) (fun _ _ _ h1 h2 => h2.trans h1) rs (fun r h t => edit_text r (hr r h) t) t

example : spaced ["likes", "Alice", "the big dog"] = spaced (preWords exRw) := by decide +kernel

/-- C90: where all rules keep the last word (as the default rules do), the words of the rewritten tree are words of the given one, in the same order, no word that
none of the rules match goes, and the noun leaves keep their words. -/
theorem C90_last (rs : List Rule) (hr : ∀ r ∈ rs, r.join = .last) (t : PTree) : (preWords (rewriter rs t)).Sublist (preWords t) ∧
    (preWords (rewriter rs t)).filter (fun w => rs.all (fun r => !r.wordOk w)) = (preWords t).filter (fun w => rs.all (fun r => !r.wordOk w)) ∧
    ∀ p, nounLeaves p (rewriter rs t) = nounLeaves p t :=
  rewriter_ind (P := fun t u => (preWords u).Sublist (preWords t) ∧
      (preWords u).filter (fun w => rs.all (fun r => !r.wordOk w)) = (preWords t).filter (fun w => rs.all (fun r => !r.wordOk w)) ∧
      ∀ p, nounLeaves p u = nounLeaves p t)
    (fun t => ⟨List.Sublist.refl _, rfl, fun _ => rfl⟩)
    (fun a b c h1 h2 => ⟨h2.1.trans h1.1, h2.2.1.trans h1.2.1, fun p => (h2.2.2 p).trans (h1.2.2 p)⟩) rs
    (fun r h t => ⟨(edit_last r (hr r h) t).1, by
      have := congrArg (List.filter (fun w => rs.all (fun r => !r.wordOk w))) (edit_last r (hr r h) t).2
      rw [List.filter_filter, List.filter_filter] at this
      have e : (fun w => (rs.all (fun r => !r.wordOk w) && !r.wordOk w)) = (fun w => rs.all (fun r => !r.wordOk w)) := by
        funext w
        by_cases h' : rs.all (fun r => !r.wordOk w) = true
        · rw [h']; simp only [List.all_eq_true] at h'; simp [h' r h]
        · simp [h']
      simp only [e] at this
      exact this, fun p => edit_leaves_last r (hr r h) p t⟩) t

example : (preWords exRw).filter (fun w => [detRule].all (fun r => !r.wordOk w)) = ["likes", "Alice", "big", "dog"] := by decide +kernel

/-- C90, refuted in general: the words of the tree in the order of their indices (the sentence) need not give the same text: in "man here", where the modifier comes
second, merging gives "here man". -/
theorem C90_refuted_sentence_order : let t : PTree := .node "here" 1 [noun] [.node "man" 0 [noun] []]
    t.getWords = ["man", "here"] ∧ (nounModRule.rewrite t) = .node "here man" 0 [noun] [] := ⟨by decide +kernel, by rfl⟩

/-! ## Once is enough -/

/-- C90: after a rule without a bound on the depth that matches all words, or that keeps the last word, no node is left that the rule matches, so that applying the rule again
changes nothing. -/
theorem C90_once_partial (r : Rule) (h : r.maxDepth = none) (hw : (∀ w, r.wordOk w = true) ∨ r.join = .last) (t : PTree) :
    r.Normal (r.rewrite t) ∧ r.rewrite (r.rewrite t) = r.rewrite t := by
  have := edit_normal r h hw t
  exact ⟨this, normal_edit r _ this⟩

/-- C90: a rule changes a tree in which it matches no node by nothing. -/
theorem C90_normal (r : Rule) (t : PTree) (h : r.Normal t) : r.rewrite t = t := normal_edit r t h

example : nounModRule.Normal (nounModRule.rewrite exRw) := (C90_once_partial nounModRule rfl (.inl fun _ => rfl) exRw).1

/-- C90, refuted in general: the rule for determiners, of depth 1, takes one word out of "the the man" at a time. -/
theorem C90_refuted_once : let t : PTree := .node "the" 0 [noun] [.node "the" 1 [noun] [.node "man" 2 [noun] []]]
    preWords (detRule.rewrite t) = ["the", "man"] ∧ preWords (detRule.rewrite (detRule.rewrite t)) = ["man"] := by decide +kernel

/-! ## New indices -/

/-- C90: where the words of the tree are words of the sentence in the same order, `_calculate_reindices` gives each index of the tree a position of the sentence: the word
there is the word of the tree, positions grow, and there is one entry for each index of the tree. -/
theorem C90_reindex_partial (sent : List String) (inds : List Nat) (toks : List String) (hl : inds.length = toks.length) (h : toks.Sublist sent) :
    let d := reindices sent 0 (inds.zip toks)
    d.map Prod.fst = inds ∧ d.map (fun q => sent[q.2]?) = toks.map some ∧ (d.map Prod.snd).Pairwise (· < ·) ∧ ∀ q ∈ d, q.2 < sent.length := by
  intro d
  have hs : (inds.zip toks).map Prod.snd = toks := List.map_snd_zip (by omega)
  obtain ⟨a, b, c⟩ := reindices_spec sent (inds.zip toks) 0 (by rw [hs]; exact h)
  refine ⟨(reindices_keys sent _ 0).trans (List.map_fst_zip (by omega)), ?_, b, fun q hq => (c q hq).2⟩
  rw [a]
  conv_rhs => rw [← hs, List.map_map]
  rfl

example : reindices ["Alice", "likes", "the", "dog"] 0 ([0, 1, 2].zip ["Alice", "likes", "dog"]) = [(0, 0), (1, 1), (2, 3)] := by
  simp [reindices, seek]

/-- C90, refuted in general: where one word of the tree is not a word of the sentence (after the words before it), it and all words after it get positions
outside the sentence. -/
theorem C90_refuted_missing (sent : List String) (ps qs : List (Nat × String)) (i : Nat) (tok : String) (h : tok ∉ sent) :
    ∀ q ∈ (reindices sent 0 (ps ++ (i, tok) :: qs)).drop ps.length, sent.length ≤ q.2 := by
  have : ∀ (ps : List (Nat × String)) (j : Nat), ∀ q ∈ (reindices sent j (ps ++ (i, tok) :: qs)).drop ps.length, sent.length ≤ q.2 := by
    intro ps
    induction ps with
    | nil =>
      intro j q hq
      have hm := seek_missing sent tok j (fun hh => h (List.mem_of_mem_drop hh))
      simp only [List.nil_append, List.length_nil, List.drop_zero, reindices] at hq
      rcases List.mem_cons.1 hq with rfl | hq
      · exact hm
      · exact reindices_out sent qs _ (by omega) q hq
    | cons p ps ih =>
      intro j q hq
      obtain ⟨a, b⟩ := p
      simp only [List.cons_append, List.length_cons, reindices, List.drop_succ_cons] at hq
      exact ih _ q hq
  exact this ps 0

example : reindices ["I", "do", "n't", "run"] 0 ([0, 1, 2].zip ["I", "don't", "run"]) = [(0, 0), (1, 4), (2, 5)] := by
  simp [reindices, seek]

mutual
theorem preInds_eq : ∀ t : PTree, preInds t = t.inds
  | .node w i t cs => by rw [preInds, preIndss_eq, PTree.inds, PTree.subs]; rfl
theorem preIndss_eq : ∀ cs : List PTree, preIndss cs = (PTree.subss cs).map PTree.ind
  | [] => by rw [preIndss, PTree.subss]; rfl
  | c :: cs => by rw [preIndss, preInds_eq c, preIndss_eq cs, PTree.subss, List.map_append]; rfl
end

/-- The list of word indices has the index of each node. -/
theorem wordIndices_all (t : PTree) (i : Nat) (h : i ∈ preInds t) : i ∈ t.getWordIndices := by
  rw [preInds_eq] at h
  obtain ⟨s, hs, rfl⟩ := List.mem_map.1 h
  rw [← PTree.withParents_map t (-1)] at hs
  obtain ⟨⟨q, s'⟩, hq, rfl⟩ := List.mem_map.1 hs
  have hm := (PTree.C87_get_nodes t).1.mem_iff.2 hq
  obtain ⟨g, hg, hx⟩ := List.mem_flatten.1 hm
  obtain ⟨hne, hall⟩ := (PTree.C87_get_nodes t).2.1 g hg
  rw [PTree.getWordIndices, List.mem_map]
  refine ⟨g, hg, ?_⟩
  cases g with
  | nil => exact absurd rfl hne
  | cons x g => exact hall x List.mem_cons_self (q, s') hx

/-- C90: setting the new indices never fails after rewriting, whatever the rules, the sentence and the tree: the result is the rewritten tree with other
indices. -/
theorem C90_reindex_total (rs : List Rule) (sent : List String) (t : PTree) :
    ∃ f : Nat → Nat, reindexNodes (reindices sent 0 (t.getWordIndices.zip t.getWords)) (rewriter rs t) = .ok (mapInd f (rewriter rs t)) ∧
      ∀ i ∈ preInds t, (i, f i) ∈ reindices sent 0 (t.getWordIndices.zip t.getWords) := by
  have hk : (reindices sent 0 (t.getWordIndices.zip t.getWords)).map Prod.fst = t.getWordIndices := by
    rw [reindices_keys]
    exact List.map_fst_zip (by rw [PTree.getWordIndices, PTree.getWords, List.length_map, List.length_map])
  refine ⟨_, reindexNodes_ok _ _ ?_, ?_⟩
  · intro i hi
    rw [hk]
    exact wordIndices_all t i ((C90_shape rs t).2.2.subset hi)
  · intro i hi
    obtain ⟨j, hj⟩ := dictGet_mem (reindices sent 0 (t.getWordIndices.zip t.getWords)) (by rw [hk]; exact wordIndices_all t i hi)
    rw [hj]
    rw [dictGet, Option.map_eq_some_iff] at hj
    obtain ⟨⟨a, b⟩, h1, rfl⟩ := hj
    have h2 := List.find?_some h1
    have h3 := List.mem_of_find?_eq_some h1
    simp only [beq_iff_eq] at h2
    subst h2
    exact List.mem_reverse.1 h3

mutual
theorem mapInd_leaves (f : Nat → Nat) (p : List Nat) : ∀ t : PTree, nounLeaves p (mapInd f t) = ((nounLeaves [] t).map (fun l => (f l.1, l.2))).filter (fun l => decide (l.1 ∉ p))
  | .node w i t cs => by
      rw [mapInd, nounLeaves, nounLeaves]
      have hcs : mapInds f cs = [] ↔ cs = [] := by cases cs <;> simp [mapInds]
      by_cases h : t = [noun] ∧ cs = []
      · rw [if_pos ⟨h.1, hcs.2 h.2⟩, if_pos h]
        by_cases hi : f i ∈ p
        · simp [hi]
        · simp [hi]
      · rw [if_neg (fun hh => h ⟨hh.1, hcs.1 hh.2⟩), if_neg h]
        exact mapInds_leaves f p cs
theorem mapInds_leaves (f : Nat → Nat) (p : List Nat) : ∀ cs : List PTree,
    nounLeavess p (mapInds f cs) = ((nounLeavess [] cs).map (fun l => (f l.1, l.2))).filter (fun l => decide (l.1 ∉ p))
  | [] => by rw [mapInds, nounLeavess, nounLeavess]; rfl
  | c :: cs => by rw [mapInds, nounLeavess, nounLeavess, mapInd_leaves f p c, mapInds_leaves f p cs, List.map_append, List.filter_append]
end

mutual
theorem leaves_subs : ∀ t : PTree, ∀ l ∈ nounLeaves [] t, ∃ s ∈ t.subs, s.ind = l.1 ∧ s.word = l.2
  | .node w i t cs => by
      intro l hl
      rw [nounLeaves] at hl
      by_cases h : t = [noun] ∧ cs = []
      · rw [if_pos h] at hl
        simp at hl
        subst hl
        exact ⟨_, by rw [PTree.subs]; exact List.mem_cons_self, rfl, rfl⟩
      · rw [if_neg h] at hl
        obtain ⟨s, hs, h1⟩ := leavess_subs cs l hl
        exact ⟨s, by rw [PTree.subs]; exact List.mem_cons_of_mem _ hs, h1⟩
theorem leavess_subs : ∀ cs : List PTree, ∀ l ∈ nounLeavess [] cs, ∃ s ∈ PTree.subss cs, s.ind = l.1 ∧ s.word = l.2
  | [] => by intro l hl; simp [nounLeavess] at hl
  | c :: cs => by
      intro l hl
      rw [nounLeavess] at hl
      rw [PTree.subss]
      rcases List.mem_append.1 hl with hl | hl
      · obtain ⟨s, hs, h1⟩ := leaves_subs c l hl
        exact ⟨s, List.mem_append_left _ hs, h1⟩
      · obtain ⟨s, hs, h1⟩ := leavess_subs cs l hl
        exact ⟨s, List.mem_append_right _ hs, h1⟩
end

mutual
/-- The indices of noun leaves are among the indices of nodes. -/
theorem leaves_inds : ∀ t : PTree, ((nounLeaves [] t).map Prod.fst).Sublist t.inds
  | .node w i t cs => by
      rw [nounLeaves, PTree.inds, PTree.subs]
      by_cases h : t = [noun] ∧ cs = []
      · rw [if_pos h]
        simp [PTree.ind]
      · rw [if_neg h]
        exact (leavess_inds cs).cons _
theorem leavess_inds : ∀ cs : List PTree, ((nounLeavess [] cs).map Prod.fst).Sublist ((PTree.subss cs).map PTree.ind)
  | [] => by rw [nounLeavess]; simp
  | c :: cs => by
      rw [nounLeavess, PTree.subss, List.map_append, List.map_append]
      exact (leaves_inds c).append (leavess_inds cs)
end

theorem mem_withParents_subs (t : PTree) (p : Int) (x : Int × PTree) (h : x ∈ t.withParents p) : x.2 ∈ t.subs := by
  have := List.mem_map_of_mem (f := Prod.snd) h
  rwa [PTree.withParents_map] at this

/-- Where indices are not repeated, the two lists have the index and the word of each node at the same place. -/
theorem zip_all (t : PTree) (hn : t.inds.Nodup) (s : PTree) (hs : s ∈ t.subs) : (s.ind, s.word) ∈ t.getWordIndices.zip t.getWords := by
  have hs' := hs
  rw [← PTree.withParents_map t (-1)] at hs'
  obtain ⟨⟨q, s'⟩, hq, rfl⟩ := List.mem_map.1 hs'
  have hm := (PTree.C87_get_nodes t).1.mem_iff.2 hq
  obtain ⟨g, hg, hx⟩ := List.mem_flatten.1 hm
  obtain ⟨hne, hall⟩ := (PTree.C87_get_nodes t).2.1 g hg
  rw [PTree.getWordIndices, PTree.getWords, List.zip_map', List.mem_map]
  refine ⟨g, hg, ?_⟩
  cases g with
  | nil => exact absurd rfl hne
  | cons x g =>
    have h1 := hall x List.mem_cons_self (q, s') hx
    have hxm : x.2 ∈ t.subs := mem_withParents_subs t (-1) x ((PTree.C87_get_nodes t).1.mem_iff.1 (List.mem_flatten.2 ⟨_, hg, List.mem_cons_self⟩))
    have : x.2 = s' := List.inj_on_of_nodup_map hn hxm hs h1
    rw [← this]
    rfl

theorem keyed_unique {d : List (Nat × Nat)} (h : (d.map Prod.fst).Nodup) {a b c : Nat} (h1 : (a, b) ∈ d) (h2 : (a, c) ∈ d) : b = c := by
  have := List.inj_on_of_nodup_map h h1 h2 rfl
  exact (Prod.mk.inj this).2

/-- C90: for rules that keep the last word, a tree with one node for each index whose words are words of the sentence in the same order, and any pruning: each noun that the reader takes
from the rewritten tree with new indices is the word of the sentence at the index that comes with it, the number is not pruned, and no noun leaf goes or comes twice. -/
theorem C90_nouns_partial (rs : List Rule) (hr : ∀ r ∈ rs, r.join = .last) (sent : List String) (t : PTree) (hn : t.inds.Nodup) (hs : t.getWords.Sublist sent) (p : List Nat) :
    ∃ u, reindexNodes (reindices sent 0 (t.getWordIndices.zip t.getWords)) (rewriter rs t) = .ok u ∧ u.typ = t.typ ∧
      (∀ l ∈ nounLeaves p u, sent[l.1]? = some l.2 ∧ l.1 ∉ p) ∧ ((nounLeaves p u).map Prod.fst).Nodup ∧
      (nounLeaves [] u).map Prod.snd = (nounLeaves [] t).map Prod.snd := by
  obtain ⟨f, hf, hd⟩ := C90_reindex_total rs sent t
  have hlen : t.getWordIndices.length = t.getWords.length := by rw [PTree.getWordIndices, PTree.getWords, List.length_map, List.length_map]
  obtain ⟨d1, d2, d3, d4⟩ := C90_reindex_partial sent t.getWordIndices t.getWords hlen hs
  have hwi : t.getWordIndices.Pairwise (· < ·) := by
    rw [PTree.getWordIndices, List.pairwise_map]
    refine (PTree.C87_get_nodes t).2.2.imp_of_mem ?_
    intro g h hg hh hlt
    have g1 := ((PTree.C87_get_nodes t).2.1 g hg).1
    have h1 := ((PTree.C87_get_nodes t).2.1 h hh).1
    cases g with
    | nil => exact absurd rfl g1
    | cons x g => cases h with
      | nil => exact absurd rfl h1
      | cons y h => exact hlt x List.mem_cons_self y List.mem_cons_self
  have hnd : (reindices sent 0 (t.getWordIndices.zip t.getWords)).map Prod.fst |>.Nodup := by rw [d1]; exact hwi.imp (fun h => Nat.ne_of_lt h)
  have hword : ∀ s ∈ t.subs, sent[f s.ind]? = some s.word := by
    intro s hs'
    have hz := zip_all t hn s hs'
    have hspec := (reindices_spec sent (t.getWordIndices.zip t.getWords) 0 (by rw [List.map_snd_zip (by omega)]; exact hs)).1
    obtain ⟨k, hk, e⟩ := List.mem_iff_getElem.1 hz
    have hlenr : (reindices sent 0 (t.getWordIndices.zip t.getWords)).length = (t.getWordIndices.zip t.getWords).length := by
      have := congrArg List.length hspec
      simpa using this
    have hk' : k < (reindices sent 0 (t.getWordIndices.zip t.getWords)).length := by omega
    have e1 : sent[((reindices sent 0 (t.getWordIndices.zip t.getWords))[k]).2]? = some s.word := by
      have := congrArg (fun l => l[k]?) hspec
      simp only [List.getElem?_map, List.getElem?_eq_getElem hk', List.getElem?_eq_getElem hk, Option.map_some, e] at this
      exact Option.some.inj this
    have e2 : ((reindices sent 0 (t.getWordIndices.zip t.getWords))[k]).1 = s.ind := by
      have := congrArg (fun l => l[k]?) (reindices_keys sent (t.getWordIndices.zip t.getWords) 0)
      simp only [List.getElem?_map, List.getElem?_eq_getElem hk', List.getElem?_eq_getElem hk, Option.map_some, e] at this
      exact Option.some.inj this
    have e3 : (s.ind, ((reindices sent 0 (t.getWordIndices.zip t.getWords))[k]).2) ∈ reindices sent 0 (t.getWordIndices.zip t.getWords) := by
      rw [← e2]; exact List.getElem_mem hk'
    have e4 := hd s.ind (by rw [preInds_eq]; exact List.mem_map_of_mem hs')
    rw [keyed_unique hnd e4 e3]
    exact e1
  have hl : nounLeaves [] (rewriter rs t) = nounLeaves [] t := (C90_last rs hr t).2.2 []
  have hinj : ∀ a ∈ t.inds, ∀ b ∈ t.inds, f a = f b → a = b := by
    intro a ha b hb e
    have ea := hd a (by rw [preInds_eq]; exact ha)
    have eb := hd b (by rw [preInds_eq]; exact hb)
    rw [e] at ea
    have := List.inj_on_of_nodup_map (d3.imp (fun h => Nat.ne_of_lt h)) ea eb rfl
    exact (Prod.mk.inj this).1
  refine ⟨_, hf, ?_, ?_, ?_, ?_⟩
  · rw [← (C90_shape rs t).1]
    cases rewriter rs t with
    | node => rw [mapInd]; rfl
  · intro l hl'
    rw [mapInd_leaves, hl, List.mem_filter] at hl'
    obtain ⟨h1, h2⟩ := hl'
    obtain ⟨l0, h3, rfl⟩ := List.mem_map.1 h1
    obtain ⟨s, h4, h5, h6⟩ := leaves_subs t l0 h3
    refine ⟨?_, of_decide_eq_true h2⟩
    dsimp only
    rw [← h5, ← h6]
    exact hword s h4
  · rw [mapInd_leaves, hl]
    refine List.Nodup.sublist (List.Sublist.map _ List.filter_sublist) ?_
    rw [List.map_map]
    have : (Prod.fst ∘ fun l : Nat × String => (f l.1, l.2)) = f ∘ Prod.fst := rfl
    rw [this, ← List.map_map]
    refine List.Nodup.map_on ?_ ((leaves_inds t).nodup hn)
    intro a ha b hb e
    exact hinj a ((leaves_inds t).subset ha) b ((leaves_inds t).subset hb) e
  · rw [mapInd_leaves, hl]
    simp

example : exRw.inds.Nodup ∧ exRw.getWords.Sublist ["Alice", "likes", "the", "big", "dog", "."] := by decide +kernel

end Disco
end Lambeq
