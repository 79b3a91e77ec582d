import Verif.Text.RemoveCycles
import Verif.Text.DiagramTreeTheorems

/-!
# Copies of words in trees of diagrams (C103)
-/

namespace Lambeq
namespace DTree
open PTree
set_option linter.unusedSimpArgs false
set_option linter.unusedVariables false

mutual
/-- Later copies of a word have no children; they hang under the word itself, or higher than or as high as the first copy: if a word under a child was already met, then it is the child. -/
def Dup : PTree → Prop
  | .node w i _ cs => Dups [(w, i)] cs
def Dups (seen : List Key) : List PTree → Prop
  | [] => True
  | c :: cs => Dup c ∧ (∀ k ∈ seen, k ∈ keys c → (c.word, c.ind) = k ∧ c.children = []) ∧ Dups (seen ++ keys c) cs
end

theorem addTy_fst (k : Key) (t : Ob) (l : List (Key × Ty)) : (addTy k t l).map Prod.fst = l.map Prod.fst := addTy_keys k t l

theorem attach_fst (K : Kids) (b : Bool) (k : Key) (t : Ob) (x : Key) (h : x ∈ ((K.attach b k t).left ++ (K.attach b k t).right).map Prod.fst) : x = k ∨ x ∈ (K.left ++ K.right).map Prod.fst := by
  simp only [List.map_append, List.mem_append] at h ⊢
  unfold Kids.attach at h
  by_cases h1 : k ∈ (if b then K.right else K.left).map Prod.fst
  · simp only [if_pos h1] at h
    split at h
    · simp only [addTy_fst] at h; exact .inr h
    · simp only [addTy_fst] at h; exact .inr h
  · simp only [if_neg h1] at h
    split at h
    · simp only [List.map_cons, List.mem_cons] at h
      rcases h with h | h | h <;> simp [h]
    · simp only [List.map_cons, List.mem_cons] at h
      rcases h with (h | h) | h <;> simp [h]

theorem uses_fst (w : Wiring) (us : List Use) (K : Kids) (x : Key) (h : x ∈ ((us.foldl (Kids.use w) K).left ++ (us.foldl (Kids.use w) K).right).map Prod.fst) :
    (∃ u ∈ us, w.owner u.child = x) ∨ x ∈ (K.left ++ K.right).map Prod.fst := by
  induction us generalizing K with
  | nil => exact .inr h
  | cons u us ih =>
    rcases ih _ h with ⟨v, hv, e⟩ | h
    · exact .inl ⟨v, by simp [hv], e⟩
    · rcases attach_fst _ _ _ _ _ h with rfl | h
      · exact .inl ⟨u, by simp, rfl⟩
      · exact .inr h

/-- The words of children are at cups of the word. -/
theorem visit_fst (w : Wiring) (k : Key) (R : List (Nat × Nat)) (hg : Good w R) (x : Key) (h : x ∈ ((w.visit k R).1).map Prod.fst) : (∃ i ∈ ends R, w.owner i = x) ∧ ∃ i ∈ ends R, w.owner i = k := by
  obtain ⟨us, h1, h2, h3, h4, h5⟩ := visit_uses w (indices w.owners k) ⟨[], [], []⟩ R hg
  simp only [Wiring.visit] at h
  rw [h1] at h
  rcases uses_fst w us _ x h with ⟨u, hu, e⟩ | h
  · have hc : u.cup ∈ R := h3.mem_iff.2 (by simp; exact .inl ⟨u, hu, rfl⟩)
    refine ⟨⟨u.child, mem_ends.2 ⟨_, hc, ?_⟩, e⟩, ⟨u.parent, mem_ends.2 ⟨_, hc, ?_⟩, ?_⟩⟩
    · unfold Use.child; cases u.toRight <;> simp
    · unfold Use.parent; cases u.toRight <;> simp
    · exact owner_eq (mem_indices.1 (h2.subset (List.mem_map_of_mem hu)))
  · simp at h

theorem ends_subset {a b : List (Nat × Nat)} (h : a.Sublist b) {i : Nat} (hi : i ∈ ends a) : i ∈ ends b := by
  obtain ⟨c, h1, h2⟩ := mem_ends.1 hi
  exact mem_ends.2 ⟨c, h.subset h1, h2⟩

/-- The words of a tree are its root and words at cups. -/
theorem grow_keys (w : Wiring) (n : Nat) (k : Key × Ty) (R : List (Nat × Nat)) (hg : Good w R) (hn : R.length < n) : ∀ x ∈ keys (w.grow n k R).1, x = k.1 ∨ ∃ i ∈ ends R, w.owner i = x := by
  induction n generalizing k R with
  | zero => omega
  | succ n ih =>
    obtain ⟨us, h1, h2, h3, h4, h5, h6⟩ := visit_edges w k.1 R hg
    have hg' := (hg.perm h1).right
    have hlen : (w.visit k.1 R).1 ≠ [] → (w.visit k.1 R).2.length < n := by
      intro hne
      have := h1.length_eq
      have h0 := List.length_pos_iff.2 (h6 hne)
      simp only [List.length_append, List.length_map] at this
      omega
    have hth : ∀ (ks : List (Key × Ty)) (R' : List (Nat × Nat)), Good w R' → R'.Sublist R → (ks ≠ [] → R'.length < n) → (∀ x ∈ ks.map Prod.fst, ∃ i ∈ ends R, w.owner i = x) →
        ∀ t ∈ (thread (w.grow n) ks R').1, ∀ x ∈ keys t, ∃ i ∈ ends R, w.owner i = x := by
      intro ks
      induction ks with
      | nil => intro R' _ _ _ _ t ht; simp [thread] at ht
      | cons a ks ihk =>
        intro R' hR hs hl hk t ht x hx
        have hl := hl (by simp)
        obtain ⟨_, _, _, g4, ⟨us, g5, g6⟩, g7⟩ := grow_grown w n a R' hR hl
        simp only [thread] at ht
        rcases List.mem_cons.1 ht with rfl | ht
        · rcases ih a R' hR hl x hx with rfl | ⟨i, hi, e⟩
          · exact hk _ (by simp)
          · exact ⟨i, ends_subset hs hi, e⟩
        · exact ihk _ ((hR.perm g5).right) (g4.trans hs) (fun _ => by have := g4.length_le; omega) (fun x hx => hk x (by simp at hx ⊢; exact .inr hx)) t ht x hx
    intro x hx
    simp only [Wiring.grow] at hx
    rw [keys_node] at hx
    rcases List.mem_cons.1 hx with rfl | hx
    · exact .inl rfl
    · obtain ⟨t, ht, hx⟩ := List.mem_flatMap.1 hx
      exact .inr (hth _ _ hg' h2 hlen (fun y hy => (visit_fst w k.1 R hg y hy).1) t ht x hx)

theorem grow_dup (w : Wiring) (n : Nat) (k : Key × Ty) (R : List (Nat × Nat)) (hg : Good w R) (hn : R.length < n) : Dup (w.grow n k R).1 := by
  induction n generalizing k R with
  | zero => omega
  | succ n ih =>
    obtain ⟨us, h1, h2, h3, h4, h5, h6⟩ := visit_edges w k.1 R hg
    have hg' := (hg.perm h1).right
    have hlen : (w.visit k.1 R).1 ≠ [] → (w.visit k.1 R).2.length < n := by
      intro hne
      have := h1.length_eq
      have h0 := List.length_pos_iff.2 (h6 hne)
      simp only [List.length_append, List.length_map] at this
      omega
    have hth : ∀ (ks : List (Key × Ty)) (R' : List (Nat × Nat)) (seen : List Key), Good w R' → (ks ≠ [] → R'.length < n) → (∀ x ∈ seen, ∀ i ∈ ends R', w.owner i ≠ x) →
        Dups seen (thread (w.grow n) ks R').1 := by
      intro ks
      induction ks with
      | nil => intro R' seen _ _ _; simp [thread, Dups]
      | cons a ks ihk =>
        intro R' seen hR hl hs
        have hl := hl (by simp)
        obtain ⟨e1, e2, _, g4, ⟨us, g5, g6⟩, g7⟩ := grow_grown w n a R' hR hl
        simp only [thread, Dups]
        refine ⟨ih a R' hR hl, ?_, ihk _ _ ((hR.perm g5).right) (fun _ => by have := g4.length_le; omega) ?_⟩
        · intro x hx hxk
          have hxa : x = a.1 := by
            rcases grow_keys w n a R' hR hl x hxk with h | ⟨i, hi, e⟩
            · exact h
            · exact absurd e (hs x hx i hi)
          subst hxa
          refine ⟨by rw [e1, e2], ?_⟩
          obtain ⟨m, rfl⟩ : ∃ m, n = m + 1 := ⟨n - 1, by omega⟩
          have hv : (w.visit a.1 R').1 = [] := by
            by_contra hne
            obtain ⟨y, ys, hy⟩ := List.exists_cons_of_ne_nil hne
            obtain ⟨_, i, hi, e⟩ := visit_fst w a.1 R' hR y.1 (by rw [hy]; simp)
            exact hs _ hx i hi e
          simp [Wiring.grow, hv, thread, PTree.children]
        · intro x hx i hi
          rcases List.mem_append.1 hx with hx | hx
          · exact hs x hx i (ends_subset g4 hi)
          · intro e
            exact g7 i hi (by rw [e]; exact hx)
    simp only [Wiring.grow]
    rw [Dup]
    refine hth _ _ _ hg' hlen ?_
    intro x hx i hi
    rw [List.mem_singleton.1 hx]
    exact h5 i hi

end DTree
end Lambeq
