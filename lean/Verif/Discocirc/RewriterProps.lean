import Verif.Discocirc.Rewriter

/-!
# DisCoCirc: properties of the rewriting of trees (C90)
-/

namespace Lambeq
open Diagram
set_option linter.unusedSimpArgs false

namespace Disco

theorem edits_eq (r : Rule) (cs : List PTree) : r.edits cs = cs.map (fun c => (r.edit c).1) := by
  induction cs with
  | nil => rw [Rule.edits]; rfl
  | cons c cs ih => rw [Rule.edits, ih, List.map_cons]

theorem target_some (r : Rule) {w : String} {i : Nat} {t : Ty} {cs : List PTree} {c : PTree} (h : r.target (.node w i t cs) = some c) :
    cs = [c] ∧ (∀ ty ∈ r.matchType, t = ty) ∧ c.typ = t ∧ r.wordOk w = true := by
  unfold Rule.target at h
  split at h
  · rename_i w' i' t' c' e
    simp only [PTree.node.injEq] at e
    obtain ⟨rfl, rfl, rfl, rfl⟩ := e
    split at h
    · rename_i hc
      obtain rfl : c' = c := by simpa using h
      exact ⟨rfl, hc⟩
    · simp at h
  · simp at h

/-- The three outcomes for a node. -/
theorem edit_cases (r : Rule) (w : String) (i : Nat) (t : Ty) (cs : List PTree) :
    (∃ c w' i' cs' n, cs = [c] ∧ c.typ = t ∧ r.wordOk w = true ∧ r.target (.node w i t cs) = some c ∧ r.edit c = (.node w' i' ((r.edit c).1.typ) cs', n) ∧
      ((∀ m ∈ r.maxDepth, n < m) ∧ r.edit (.node w i t cs) = (.node (r.join.words w w') i' ((r.edit c).1.typ) cs', n + 1) ∨
       (¬ ∀ m ∈ r.maxDepth, n < m) ∧ r.edit (.node w i t cs) = (.node w i t [(r.edit c).1], n))) ∨
    (r.target (.node w i t cs) = none ∧ r.edit (.node w i t cs) = (.node w i t (r.edits cs), 0)) := by
  cases h : r.target (.node w i t cs) with
  | none => right; refine ⟨rfl, ?_⟩; rw [Rule.edit, h]; rfl
  | some c =>
    left
    obtain ⟨rfl, h2, h3, h4⟩ := target_some r h
    rcases hr : r.edit c with ⟨⟨w', i', t', cs'⟩, n⟩
    refine ⟨c, w', i', cs', n, rfl, h3, h4, rfl, ?_, ?_⟩
    · rw [hr]; rfl
    · by_cases hm : ∀ m ∈ r.maxDepth, n < m
      · left
        refine ⟨hm, ?_⟩
        rw [Rule.edit, h, Rule.editFirst, hr]
        simp only [Option.isSome_some, if_true]
        rw [if_pos hm]; rfl
      · right
        refine ⟨hm, ?_⟩
        rw [Rule.edit, h, Rule.editFirst, hr]
        simp only [Option.isSome_some, if_true]
        rw [if_neg hm]

theorem edit_typ (r : Rule) : ∀ t : PTree, (r.edit t).1.typ = t.typ
  | .node w i t cs => by
      rcases edit_cases r w i t cs with ⟨c, w', i', cs', n, rfl, h2, h3, h4, h5, h | h⟩ | ⟨_, h⟩
      · rw [h.2]
        have := edit_typ r c
        show (r.edit c).1.typ = t
        rw [this, h2]
      · rw [h.2]; rfl
      · rw [h]; rfl

mutual
theorem edit_inds (r : Rule) : ∀ t : PTree, (preInds (r.edit t).1).Sublist (preInds t)
  | .node w i t cs => by
      rcases edit_cases r w i t cs with ⟨c, w', i', cs', n, rfl, h2, h3, h4, h5, h | h⟩ | ⟨_, h⟩
      · have := edit_inds r c
        rw [h.2]
        rw [h5] at this
        rw [preInds] at this ⊢
        rw [preInds, preIndss, preIndss, List.append_nil]
        exact this.cons _
      · have := edit_inds r c
        rw [h.2, preInds, preInds, preIndss, preIndss, preIndss, preIndss, List.append_nil, List.append_nil]
        exact this.cons_cons _
      · rw [h, preInds, preInds]
        exact (edits_inds r cs).cons_cons _
theorem edits_inds (r : Rule) : ∀ cs : List PTree, (preIndss (r.edits cs)).Sublist (preIndss cs)
  | [] => by rw [Rule.edits]
  | c :: cs => by
      rw [Rule.edits, preIndss, preIndss]
      exact (edit_inds r c).append (edits_inds r cs)
end

theorem leaf_word (p : List Nat) (w w' : String) (i : Nat) (t : Ty) (cs : List PTree) :
    (nounLeaves p (.node w i t cs)).map Prod.fst = (nounLeaves p (.node w' i t cs)).map Prod.fst := by
  rw [nounLeaves, nounLeaves]
  by_cases h : t = [noun] ∧ cs = []
  · rw [if_pos h, if_pos h]
    by_cases hi : i ∈ p
    · rw [if_pos hi, if_pos hi]
    · rw [if_neg hi, if_neg hi]; rfl
  · rw [if_neg h, if_neg h]

theorem nounLeaves_one (p : List Nat) (w : String) (i : Nat) (t : Ty) (c : PTree) : nounLeaves p (.node w i t [c]) = nounLeaves p c := by
  rw [nounLeaves, if_neg (by simp), nounLeavess, nounLeavess, List.append_nil]

theorem node_typ_eta (r : Rule) (c : PTree) {w' : String} {i' : Nat} {t' : Ty} {cs' : List PTree} {n : Int} (h : r.edit c = (.node w' i' t' cs', n)) :
    (r.edit c).1 = .node w' i' t' cs' := by rw [h]

mutual
theorem edit_leaves (r : Rule) (p : List Nat) : ∀ t : PTree, (nounLeaves p (r.edit t).1).map Prod.fst = (nounLeaves p t).map Prod.fst
  | .node w i t cs => by
      rcases edit_cases r w i t cs with ⟨c, w', i', cs', n, rfl, h2, h3, h4, h5, h | h⟩ | ⟨_, h⟩
      · have := edit_leaves r p c
        rw [h.2, nounLeaves_one, ← this, node_typ_eta r c h5]
        exact leaf_word p _ _ _ _ _
      · have := edit_leaves r p c
        rw [h.2, nounLeaves_one, nounLeaves_one, this]
      · rw [h, nounLeaves, nounLeaves]
        by_cases hl : t = [noun] ∧ cs = []
        · rw [if_pos hl]
          obtain ⟨rfl, rfl⟩ := hl
          rw [if_pos ⟨rfl, by rw [Rule.edits]⟩]
        · rw [if_neg hl, if_neg (fun hh => hl ⟨hh.1, by rw [edits_eq] at hh; simpa using hh.2⟩)]
          exact edits_leaves r p cs
theorem edits_leaves (r : Rule) (p : List Nat) : ∀ cs : List PTree, (nounLeavess p (r.edits cs)).map Prod.fst = (nounLeavess p cs).map Prod.fst
  | [] => by rw [Rule.edits]
  | c :: cs => by
      rw [Rule.edits, nounLeavess, nounLeavess, List.map_append, List.map_append, edit_leaves r p c, edits_leaves r p cs]
end

mutual
theorem edit_leaves_last (r : Rule) (hr : r.join = .last) (p : List Nat) : ∀ t : PTree, nounLeaves p (r.edit t).1 = nounLeaves p t
  | .node w i t cs => by
      rcases edit_cases r w i t cs with ⟨c, w', i', cs', n, rfl, h2, h3, h4, h5, h | h⟩ | ⟨_, h⟩
      · have := edit_leaves_last r hr p c
        rw [h.2, nounLeaves_one, ← this, node_typ_eta r c h5, hr]
        rfl
      · have := edit_leaves_last r hr p c
        rw [h.2, nounLeaves_one, nounLeaves_one, this]
      · rw [h, nounLeaves, nounLeaves]
        by_cases hl : t = [noun] ∧ cs = []
        · rw [if_pos hl]
          obtain ⟨rfl, rfl⟩ := hl
          rw [if_pos ⟨rfl, by rw [Rule.edits]⟩]
        · rw [if_neg hl, if_neg (fun hh => hl ⟨hh.1, by rw [edits_eq] at hh; simpa using hh.2⟩)]
          exact edits_leaves_last r hr p cs
theorem edits_leaves_last (r : Rule) (hr : r.join = .last) (p : List Nat) : ∀ cs : List PTree, nounLeavess p (r.edits cs) = nounLeavess p cs
  | [] => by rw [Rule.edits]
  | c :: cs => by
      rw [Rule.edits, nounLeavess, nounLeavess, edit_leaves_last r hr p c, edits_leaves_last r hr p cs]
end

/-- Words, each followed by a space. -/
def spaced (ws : List String) : List Char := ws.flatMap (fun w => w.toList ++ [' '])

theorem spaced_cons (w : String) (ws : List String) : spaced (w :: ws) = w.toList ++ ' ' :: spaced ws := by simp [spaced]

theorem spaced_append (a b : List String) : spaced (a ++ b) = spaced a ++ spaced b := by simp [spaced]

mutual
theorem edit_text (r : Rule) (hr : r.join = .merge) : ∀ t : PTree, spaced (preWords (r.edit t).1) = spaced (preWords t)
  | .node w i t cs => by
      rcases edit_cases r w i t cs with ⟨c, w', i', cs', n, rfl, h2, h3, h4, h5, h | h⟩ | ⟨_, h⟩
      · have := edit_text r hr c
        rw [node_typ_eta r c h5, preWords] at this
        rw [h.2, preWords, preWords, preWordss, preWordss, List.append_nil, spaced_cons, spaced_cons, ← this, spaced_cons, hr]
        simp [Join.words]
      · have := edit_text r hr c
        rw [h.2, preWords, preWords, preWordss, preWordss, preWordss, preWordss, List.append_nil, List.append_nil, spaced_cons, spaced_cons, this]
      · rw [h, preWords, preWords, spaced_cons, spaced_cons, edits_text r hr cs]
theorem edits_text (r : Rule) (hr : r.join = .merge) : ∀ cs : List PTree, spaced (preWordss (r.edits cs)) = spaced (preWordss cs)
  | [] => by rw [Rule.edits]
  | c :: cs => by rw [Rule.edits, preWordss, preWordss, spaced_append, spaced_append, edit_text r hr c, edits_text r hr cs]
end

mutual
theorem edit_last (r : Rule) (hr : r.join = .last) : ∀ t : PTree, (preWords (r.edit t).1).Sublist (preWords t) ∧
    (preWords (r.edit t).1).filter (fun w => !r.wordOk w) = (preWords t).filter (fun w => !r.wordOk w)
  | .node w i t cs => by
      rcases edit_cases r w i t cs with ⟨c, w', i', cs', n, rfl, h2, h3, h4, h5, h | h⟩ | ⟨_, h⟩
      · obtain ⟨a, b⟩ := edit_last r hr c
        rw [node_typ_eta r c h5, preWords] at a b
        rw [h.2, hr, preWords, preWords, preWordss, preWordss, List.append_nil]
        simp only [Join.words]
        refine ⟨a.cons _, ?_⟩
        rw [b, List.filter_cons_of_neg (by simp [h3])]
      · obtain ⟨a, b⟩ := edit_last r hr c
        rw [h.2, preWords, preWords, preWordss, preWordss, preWordss, preWordss, List.append_nil, List.append_nil]
        refine ⟨a.cons_cons _, ?_⟩
        rw [List.filter_cons, List.filter_cons, b]
      · obtain ⟨a, b⟩ := edits_last r hr cs
        rw [h, preWords, preWords]
        refine ⟨a.cons_cons _, ?_⟩
        rw [List.filter_cons, List.filter_cons, b]
theorem edits_last (r : Rule) (hr : r.join = .last) : ∀ cs : List PTree, (preWordss (r.edits cs)).Sublist (preWordss cs) ∧
    (preWordss (r.edits cs)).filter (fun w => !r.wordOk w) = (preWordss cs).filter (fun w => !r.wordOk w)
  | [] => by rw [Rule.edits]; exact ⟨List.Sublist.refl _, rfl⟩
  | c :: cs => by
      obtain ⟨a, b⟩ := edit_last r hr c
      obtain ⟨a', b'⟩ := edits_last r hr cs
      rw [Rule.edits, preWordss, preWordss]
      exact ⟨a.append a', by rw [List.filter_append, List.filter_append, b, b']⟩
end

theorem chain_none (r : Rule) (w : String) (i : Nat) (t : Ty) (cs : List PTree) (h : r.target (.node w i t cs) = none) :
    r.chain (.node w i t cs) = ([], .node w i t cs) := by
  cases cs with
  | nil => rw [Rule.chain]; simp
  | cons c cs => cases cs with
    | nil => rw [Rule.chain, h]; simp
    | cons c' cs => rw [Rule.chain]; simp

/-- The declarative form of `edit_tree`. -/
theorem edit_chain (r : Rule) : ∀ t : PTree, ∃ ch bw bi bt bcs, r.chain t = (ch, .node bw bi bt bcs) ∧ r.target (.node bw bi bt bcs) = none ∧ bt = t.typ ∧
    (r.edit t).1 = stack t.typ (ch.take (r.stay ch.length)) (.node (joined r.join (ch.drop (r.stay ch.length)) bw) bi bt (r.edits bcs)) ∧
    (r.edit t).2 = ch.length - r.stay ch.length
  | .node w i t cs => by
      rcases edit_cases r w i t cs with ⟨c, w', i', cs', n, rfl, h2, h3, h4, h5, hh⟩ | ⟨hn, h⟩
      · obtain ⟨ch, bw, bi, bt, bcs, e1, e2, e3, e4, e5⟩ := edit_chain r c
        have hc : r.chain (.node w i t [c]) = ((w, i) :: ch, .node bw bi bt bcs) := by
          rw [Rule.chain, h4, e1]; rfl
        have hn : n = ch.length - r.stay ch.length := by rw [← e5, h5]
        refine ⟨(w, i) :: ch, bw, bi, bt, bcs, hc, e2, by rw [e3, h2]; rfl, ?_⟩
        rw [List.length_cons]
        rcases hh with ⟨hm, h⟩ | ⟨hm, h⟩
        · have hs : r.stay ch.length = 0 ∧ r.stay (ch.length + 1) = 0 := by
            unfold Rule.stay at hn ⊢
            cases hmd : r.maxDepth with
            | none => exact ⟨rfl, rfl⟩
            | some m =>
              rw [hmd] at hn hm
              have := hm m rfl
              simp only at hn ⊢
              omega
          rw [hs.2]
          rw [hs.1] at e4 hn
          rw [List.take_zero, List.drop_zero] at e4 ⊢
          rw [stack] at e4 ⊢
          rw [node_typ_eta r c h5] at e4
          simp only [PTree.node.injEq] at e4
          obtain ⟨a1, a2, a3, a4⟩ := e4
          rw [h, joined, a1, a2, a3, a4, hn]
          exact ⟨rfl, by push_cast; omega⟩
        · have hs : r.stay (ch.length + 1) = r.stay ch.length + 1 ∧ r.stay ch.length ≤ ch.length := by
            unfold Rule.stay at hn ⊢
            cases hmd : r.maxDepth with
            | none => rw [hmd] at hm; exact absurd (by simp) hm
            | some m =>
              rw [hmd] at hn hm
              have : ¬ n < m := fun hlt => hm (by simpa using hlt)
              simp only at hn ⊢
              omega
          rw [hs.1, h, List.take_succ_cons, List.drop_succ_cons, stack, e4, h2, hn]
          exact ⟨rfl, by push_cast; omega⟩
      · refine ⟨[], w, i, t, cs, chain_none r w i t cs hn, hn, rfl, ?_, ?_⟩
        · rw [h]; simp [stack, joined, PTree.typ]
        · rw [h]
          unfold Rule.stay
          cases r.maxDepth <;> simp

theorem target_word (r : Rule) (w : String) (i i' : Nat) (t : Ty) (cs : List PTree) (h : r.target (.node w i t cs) = none) :
    r.target (.node w i' t (r.edits cs)) = none := by
  cases cs with
  | nil => rw [Rule.edits]; rfl
  | cons c cs => cases cs with
    | nil =>
      rw [Rule.edits, Rule.edits]
      simp only [Rule.target] at h ⊢
      rw [edit_typ]
      by_cases hc : (∀ ty ∈ r.matchType, t = ty) ∧ c.typ = t ∧ r.wordOk w = true
      · simp only [if_pos hc] at h; simp at h
      · simp only [if_neg hc]
    | cons c' cs => rw [Rule.edits, Rule.edits]; rfl

/-- When the new word of a merged node can only match if the old one did. -/
def Rule.Stable (r : Rule) : Prop := r.maxDepth = none ∧ ∀ w w' : String, r.wordOk w = true → r.wordOk w' = false → r.wordOk (r.join.words w w') = false

theorem joined_ok (r : Rule) (hr : ∀ w w' : String, r.wordOk w = true → r.wordOk w' = false → r.wordOk (r.join.words w w') = false) (ch : List (String × Nat))
    (hch : ∀ a ∈ ch, r.wordOk a.1 = true) (w : String) (hw : r.wordOk w = false) : r.wordOk (joined r.join ch w) = false := by
  induction ch with
  | nil => exact hw
  | cons a ch ih => obtain ⟨a, i⟩ := a; exact hr a _ (hch _ List.mem_cons_self) (ih (fun b hb => hch b (List.mem_cons_of_mem _ hb)))

theorem chain_words (r : Rule) : ∀ t : PTree, ∀ a ∈ (r.chain t).1, r.wordOk a.1 = true
  | .node w i t cs => by
      cases h : r.target (.node w i t cs) with
      | none => rw [chain_none r w i t cs h]; intro a ha; simp at ha
      | some c =>
        obtain ⟨rfl, h2, h3, h4⟩ := target_some r h
        rw [Rule.chain, h]
        intro a ha
        rcases List.mem_cons.1 ha with rfl | ha
        · exact h4
        · exact chain_words r c a ha

mutual
/-- Without a bound on the depth nothing is left to merge. -/
theorem edit_normal (r : Rule) (h : r.maxDepth = none) (hw : (∀ w, r.wordOk w = true) ∨ r.join = .last) : ∀ t : PTree, r.Normal (r.edit t).1
  | .node w i t cs => by
      rcases edit_cases r w i t cs with ⟨c, w', i', cs', n, rfl, h2, h3, h4, h5, hh⟩ | ⟨hn, he⟩
      · have := edit_normal r h hw c
        rcases hh with ⟨hm, he⟩ | ⟨hm, he⟩
        · rw [he]
          rw [node_typ_eta r c h5, Rule.Normal] at this
          rw [Rule.Normal]
          refine ⟨?_, this.2⟩
          rcases hw with hw | hw
          · have h1 := this.1
            revert h1
            unfold Rule.target
            split
            · rename_i e
              simp only [PTree.node.injEq] at e
              obtain ⟨-, rfl, rfl, rfl⟩ := e
              simp only [hw]
              exact _root_.id
            · rename_i hne
              intro _
              split
              · rename_i e
                simp only [PTree.node.injEq] at e
                obtain ⟨-, rfl, rfl, rfl⟩ := e
                exact absurd rfl (hne _ _ _ _)
              · rfl
          · rw [hw]; exact this.1
        · rw [h] at hm; exact absurd (by simp) hm
      · rw [he, Rule.Normal]
        exact ⟨target_word r w i i t cs hn, edits_normal r h hw cs⟩
theorem edits_normal (r : Rule) (h : r.maxDepth = none) (hw : (∀ w, r.wordOk w = true) ∨ r.join = .last) : ∀ cs : List PTree, r.Normals (r.edits cs)
  | [] => by rw [Rule.edits, Rule.Normals]; trivial
  | c :: cs => by
      rw [Rule.edits, Rule.Normals]
      exact ⟨edit_normal r h hw c, edits_normal r h hw cs⟩
end

mutual
theorem normal_edit (r : Rule) : ∀ t : PTree, r.Normal t → (r.edit t).1 = t
  | .node w i t cs, h => by
      rw [Rule.Normal] at h
      rcases edit_cases r w i t cs with ⟨c, w', i', cs', n, rfl, h2, h3, h4, h5, hh⟩ | ⟨hn, he⟩
      · rw [h.1] at h4; simp at h4
      · rw [he, normals_edit r cs h.2]
theorem normals_edit (r : Rule) : ∀ cs : List PTree, r.Normals cs → r.edits cs = cs
  | [], _ => by rw [Rule.edits]
  | c :: cs, h => by
      rw [Rule.Normals] at h
      rw [Rule.edits, normal_edit r c h.1, normals_edit r cs h.2]
end

/-! ## New indices -/

theorem seek_ge (orig : List String) (tok : String) (j : Nat) : j ≤ seek orig tok j := by
  rw [seek]
  split
  · rename_i h
    split
    · have := seek_ge orig tok (j + 1); omega
    · exact le_refl _
  · exact le_refl _
termination_by orig.length - j

theorem seek_found (orig : List String) (tok : String) (j : Nat) (h : tok ∈ orig.drop j) :
    orig[seek orig tok j]? = some tok ∧ ∀ k, j ≤ k → k < seek orig tok j → orig[k]? ≠ some tok := by
  rw [seek]
  split
  · rename_i hj
    split
    · rename_i hne
      rw [List.drop_eq_getElem_cons hj] at h
      rcases List.mem_cons.1 h with h | h
      · exact absurd h.symm hne
      · obtain ⟨a, b⟩ := seek_found orig tok (j + 1) h
        refine ⟨a, ?_⟩
        intro k h1 h2
        rcases Nat.eq_or_lt_of_le h1 with h3 | h3
        · subst h3
          rw [List.getElem?_eq_getElem hj]
          simpa using hne
        · exact b k h3 h2
    · rename_i he
      have he' : orig[j] = tok := by simpa using he
      exact ⟨by rw [List.getElem?_eq_getElem hj, he'], fun k h1 h2 => by omega⟩
  · rename_i hj
    rw [List.drop_eq_nil_of_le (by omega)] at h
    simp at h
termination_by orig.length - j

theorem seek_missing (orig : List String) (tok : String) (j : Nat) (h : tok ∉ orig.drop j) : orig.length ≤ seek orig tok j := by
  rw [seek]
  split
  · rename_i hj
    rw [List.drop_eq_getElem_cons hj] at h
    rw [if_pos (fun e => h (by rw [← e]; exact List.mem_cons_self))]
    exact seek_missing orig tok (j + 1) (fun hh => h (List.mem_cons_of_mem _ hh))
  · omega
termination_by orig.length - j

/-- The rest after the leftmost occurrence still contains the other tokens. -/
theorem sublist_seek (orig : List String) (tok : String) (toks : List String) (j : Nat) (h : (tok :: toks).Sublist (orig.drop j)) :
    toks.Sublist (orig.drop (seek orig tok j + 1)) := by
  rw [seek]
  split
  · rename_i hj
    rw [List.drop_eq_getElem_cons hj] at h
    split
    · rename_i hne
      refine sublist_seek orig tok toks (j + 1) ?_
      cases h with
      | cons _ h => exact h
      | cons_cons _ h => exact absurd rfl hne
    · cases h with
      | cons _ h => exact (List.sublist_cons_self _ _).trans h
      | cons_cons _ h => exact h
  · rename_i hj
    rw [List.drop_eq_nil_of_le (by omega)] at h
    simp at h
termination_by orig.length - j

theorem reindices_keys (orig : List String) (ps : List (Nat × String)) : ∀ j : Nat, (reindices orig j ps).map Prod.fst = ps.map Prod.fst := by
  induction ps with
  | nil => intro j; rfl
  | cons p ps ih => intro j; obtain ⟨i, tok⟩ := p; rw [reindices, List.map_cons, List.map_cons, ih]

theorem reindices_spec (orig : List String) (ps : List (Nat × String)) : ∀ j : Nat, (ps.map Prod.snd).Sublist (orig.drop j) →
    (reindices orig j ps).map (fun q => orig[q.2]?) = ps.map (fun p => some p.2) ∧ ((reindices orig j ps).map Prod.snd).Pairwise (· < ·) ∧
      ∀ q ∈ reindices orig j ps, j ≤ q.2 ∧ q.2 < orig.length := by
  induction ps with
  | nil => intro j _; exact ⟨rfl, by simp [reindices], by simp [reindices]⟩
  | cons p ps ih =>
    intro j h
    obtain ⟨i, tok⟩ := p
    rw [List.map_cons] at h
    have hm : tok ∈ orig.drop j := h.subset List.mem_cons_self
    obtain ⟨f1, _⟩ := seek_found orig tok j hm
    have hge := seek_ge orig tok j
    obtain ⟨a, b, c⟩ := ih _ (sublist_seek orig tok _ j h)
    rw [reindices]
    refine ⟨by rw [List.map_cons, List.map_cons, f1, a], ?_, ?_⟩
    · rw [List.map_cons, List.pairwise_cons]
      refine ⟨?_, b⟩
      intro x hx
      obtain ⟨q, hq, rfl⟩ := List.mem_map.1 hx
      have := (c q hq).1
      show seek orig tok j < q.2
      omega
    · intro q hq
      rcases List.mem_cons.1 hq with rfl | hq
      · exact ⟨hge, (List.getElem?_eq_some_iff.1 f1).1⟩
      · have := c q hq; omega

/-- From a missing token on all indices are out of range. -/
theorem reindices_out (orig : List String) (ps : List (Nat × String)) : ∀ j : Nat, orig.length ≤ j → ∀ q ∈ reindices orig j ps, orig.length ≤ q.2 := by
  induction ps with
  | nil => intro j _ q hq; simp [reindices] at hq
  | cons p ps ih =>
    intro j h q hq
    obtain ⟨i, tok⟩ := p
    rw [reindices] at hq
    have hge := seek_ge orig tok j
    rcases List.mem_cons.1 hq with rfl | hq
    · show orig.length ≤ seek orig tok j
      omega
    · exact ih _ (by omega) q hq

theorem dictGet_some (d : List (Nat × Nat)) (hd : (d.map Prod.fst).Nodup) {i j : Nat} (h : (i, j) ∈ d) : dictGet d i = some j := by
  unfold dictGet
  have hd' : (d.reverse.map Prod.fst).Nodup := by rw [List.map_reverse]; exact List.nodup_reverse.2 hd
  have h' : (i, j) ∈ d.reverse := List.mem_reverse.2 h
  generalize d.reverse = l at *
  induction l with
  | nil => simp at h'
  | cons a l ih =>
    rw [List.map_cons, List.nodup_cons] at hd'
    rcases List.mem_cons.1 h' with e | hm
    · subst e; simp
    · have hne : (a.1 == i) = false := by
        rw [beq_eq_false_iff_ne]
        intro e
        exact hd'.1 (List.mem_map.2 ⟨_, hm, e.symm⟩)
      rw [List.find?_cons, hne]
      exact ih hd'.2 hm

theorem dictGet_mem (d : List (Nat × Nat)) {i : Nat} (h : i ∈ d.map Prod.fst) : ∃ j, dictGet d i = some j := by
  unfold dictGet
  obtain ⟨p, hp, rfl⟩ := List.mem_map.1 h
  cases hf : d.reverse.find? (fun q => q.1 == p.1) with
  | none =>
    rw [List.find?_eq_none] at hf
    exact absurd (by simp) (hf p (List.mem_reverse.2 hp))
  | some q => exact ⟨q.2, rfl⟩

mutual
/-- A tree with new indices. -/
def mapInd (f : Nat → Nat) : PTree → PTree
  | .node w i t cs => .node w (f i) t (mapInds f cs)
def mapInds (f : Nat → Nat) : List PTree → List PTree
  | [] => []
  | c :: cs => mapInd f c :: mapInds f cs
end

mutual
theorem reindexNodes_ok (d : List (Nat × Nat)) : ∀ t : PTree, (∀ i ∈ preInds t, i ∈ d.map Prod.fst) →
    reindexNodes d t = .ok (mapInd (fun i => (dictGet d i).getD 0) t)
  | .node w i t cs, h => by
      rw [preInds] at h
      obtain ⟨j, hj⟩ := dictGet_mem d (h i List.mem_cons_self)
      rw [reindexNodes, hj]
      dsimp only
      rw [reindexNodess_ok d cs (fun k hk => h k (List.mem_cons_of_mem _ hk)), mapInd, hj]
      rfl
theorem reindexNodess_ok (d : List (Nat × Nat)) : ∀ cs : List PTree, (∀ i ∈ preIndss cs, i ∈ d.map Prod.fst) →
    reindexNodess d cs = .ok (mapInds (fun i => (dictGet d i).getD 0) cs)
  | [], _ => by rw [reindexNodess, mapInds]
  | c :: cs, h => by
      rw [preIndss] at h
      rw [reindexNodess, reindexNodes_ok d c (fun k hk => h k (List.mem_append_left _ hk))]
      dsimp only
      rw [reindexNodess_ok d cs (fun k hk => h k (List.mem_append_right _ hk)), mapInds]
end

end Disco
end Lambeq
