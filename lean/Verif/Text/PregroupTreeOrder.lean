import Verif.Text.PregroupTreePos

/-!
# Pregroup trees: the order of the components of a word
-/

namespace Lambeq
namespace PTree
set_option linter.unusedSimpArgs false

theorem parOutside_child {t c : PTree} (h : t.Projective) (hc : c ∈ t.children) : ParOutside (t.ind : Int) c := by
  rcases h.oneSide hc with h | h
  · left; intro a ha; have := h a ha; omega
  · right; intro a ha; have := h a ha; omega

/-- What holds for every node together with its parent. -/
theorem withParents_spec (t : PTree) (p : Int) (hp : t.Projective) (ho : ParOutside p t) (x : Int × PTree) (hx : x ∈ t.withParents p) :
    x.2.Projective ∧ ParOutside x.1 x.2 ∧ x.2 ∈ t.subs ∧ (x = (p, t) ∨ ∃ s ∈ t.subs, x.1 = s.ind ∧ x.2 ∈ s.children) ∧
      ∀ c ∈ x.2.children, ((x.2.ind : Int), c) ∈ t.withParents p := by
  induction t using ind' generalizing p with
  | H w i ty cs ih =>
    rw [withParents_eq] at hx
    rcases List.mem_cons.1 hx with rfl | hx2
    · refine ⟨hp, ho, by rw [subs_node]; simp, .inl rfl, ?_⟩
      intro c hc
      rw [withParents_eq]
      refine List.mem_cons_of_mem _ (List.mem_flatMap.2 ⟨c, hc, ?_⟩)
      rw [withParents_eq]; simp
    · obtain ⟨c, hc, hx3⟩ := List.mem_flatMap.1 hx2
      obtain ⟨h1, h2, h3, h4, h5⟩ := ih c hc _ (hp.child hc) (parOutside_child hp hc) hx3
      have hsub : ∀ s ∈ c.subs, s ∈ (node w i ty cs).subs := by
        intro s hs
        rw [subs_node]
        exact List.mem_cons_of_mem _ (List.mem_flatMap.2 ⟨c, hc, hs⟩)
      refine ⟨h1, h2, hsub _ h3, ?_, ?_⟩
      · right
        rcases h4 with rfl | ⟨s, hs, e1, e2⟩
        · exact ⟨node w i ty cs, by rw [subs_node]; simp, rfl, hc⟩
        · exact ⟨s, hsub s hs, e1, e2⟩
      · intro d hd
        rw [withParents_eq]
        exact List.mem_cons_of_mem _ (List.mem_flatMap.2 ⟨c, hc, h5 d hd⟩)

/-- every node has a parent or is the root -/
theorem withParents_exists (t : PTree) (p : Int) (s : PTree) (hs : s ∈ t.subs) : ∃ q, (q, s) ∈ t.withParents p := by
  induction t using ind' generalizing p with
  | H w i ty cs ih =>
    rw [subs_node] at hs
    rcases List.mem_cons.1 hs with rfl | hs2
    · exact ⟨p, by rw [withParents_eq]; simp⟩
    · obtain ⟨c, hc, h⟩ := List.mem_flatMap.1 hs2
      obtain ⟨q, hq⟩ := ih c hc i h
      exact ⟨q, by rw [withParents_eq]; exact List.mem_cons_of_mem _ (List.mem_flatMap.2 ⟨c, hc, hq⟩)⟩

theorem mem_edges {t : PTree} {c p : Nat} : (c, p) ∈ t.edges ↔ ∃ s ∈ t.subs, ∃ d ∈ s.children, d.ind = c ∧ s.ind = p := by
  simp only [edges, List.mem_flatMap, List.mem_map, Prod.mk.injEq]

/-- the words a word should be connected to, from left to right in its type -/
theorem keys_fullComps (p : Int) (t : PTree) : (fullComps p t).map (·.1) =
    t.lefts.reverse.map (fun c => (c.ind : Int)) ++ p :: t.rights.reverse.map (fun c => (c.ind : Int)) := by
  simp [fullComps, Function.comp_def]

theorem mem_keys {p : Int} {t : PTree} (h : t.Projective) {o : Int} : o ∈ (fullComps p t).map (·.1) ↔ o = p ∨ ∃ c ∈ t.children, o = c.ind := by
  rw [keys_fullComps]
  simp only [List.mem_append, List.mem_cons, List.mem_map, List.mem_reverse, mem_lefts, mem_rights]
  constructor
  · rintro (⟨c, hc, rfl⟩ | rfl | ⟨c, hc, rfl⟩)
    · exact .inr ⟨c, hc.1, rfl⟩
    · exact .inl rfl
    · exact .inr ⟨c, hc.1, rfl⟩
  · rintro (rfl | ⟨c, hc, rfl⟩)
    · exact .inr (.inl rfl)
    · rcases Nat.lt_or_gt_of_ne (h.child_ne hc) with h' | h'
      · exact .inl ⟨c, ⟨hc, h'⟩, rfl⟩
      · exact .inr (.inr ⟨c, ⟨hc, h'⟩, rfl⟩)

theorem nodup_keys {p : Int} {t : PTree} (h : t.Projective) (hp : ParOutside p t) : ((fullComps p t).map (·.1)).Nodup := by
  rw [keys_fullComps]
  have hl : (t.lefts.reverse.map (fun c => (c.ind : Int))).Nodup := by
    rw [List.Nodup, List.pairwise_map, List.pairwise_reverse]
    exact (lefts_strict h).imp (fun h => by omega)
  have hr : (t.rights.reverse.map (fun c => (c.ind : Int))).Nodup := by
    rw [List.Nodup, List.pairwise_map, List.pairwise_reverse]
    exact (rights_strict h).imp (fun h => by omega)
  have hpc : ∀ c ∈ t.children, (c.ind : Int) ≠ p := by
    intro c hc
    rcases hp with h | h <;> have := h _ (child_ind_mem hc) <;> omega
  rw [List.nodup_append, List.nodup_cons]
  refine ⟨hl, ⟨?_, hr⟩, ?_⟩
  · simp only [List.mem_map, List.mem_reverse, mem_rights]
    rintro ⟨c, hc, e⟩
    exact hpc c hc.1 e
  · intro a ha b hb
    simp only [List.mem_map, List.mem_reverse, mem_lefts, mem_rights, List.mem_cons] at ha hb
    obtain ⟨c, hc, rfl⟩ := ha
    rcases hb with rfl | ⟨d, hd, rfl⟩
    · exact hpc c hc.1
    · omega

/-- One word of the order of components is before another one. -/
theorem keys_pair {l r : List Int} {p a b : Int} (h : [a, b].Sublist (l ++ p :: r)) :
    [a, b].Sublist l ∨ (a ∈ l ∧ b = p) ∨ (a ∈ l ∧ b ∈ r) ∨ (a = p ∧ b ∈ r) ∨ [a, b].Sublist r := by
  obtain ⟨l1, l2, e, h1, h2⟩ := List.sublist_append_iff.1 h
  match l1, e with
  | [], e =>
    simp only [List.nil_append] at e
    subst e
    rcases List.sublist_cons_iff.1 h2 with h3 | ⟨r', e', h3⟩
    · exact .inr (.inr (.inr (.inr h3)))
    · simp only [List.cons.injEq] at e'
      obtain ⟨rfl, rfl⟩ := e'
      exact .inr (.inr (.inr (.inl ⟨rfl, h3.subset (by simp)⟩)))
  | [x], e =>
    simp only [List.cons_append, List.nil_append, List.cons.injEq] at e
    obtain ⟨rfl, rfl⟩ := e
    have ha : a ∈ l := h1.subset (by simp)
    have hb : b ∈ p :: r := h2.subset (by simp)
    rcases List.mem_cons.1 hb with rfl | hb
    · exact .inr (.inl ⟨ha, rfl⟩)
    · exact .inr (.inr (.inl ⟨ha, hb⟩))
  | x :: y :: l1, e =>
    simp only [List.cons_append, List.cons.injEq] at e
    obtain ⟨rfl, rfl, e⟩ := e
    have := (List.append_eq_nil_iff.1 e.symm).1
    subst this
    exact .inl h1

theorem sorted_pair {l : List PTree} (h : l.Pairwise (fun a b => a.ind < b.ind)) {a b : Int}
    (hs : [a, b].Sublist (l.reverse.map (fun c => (c.ind : Int)))) : b < a := by
  have h1 : (l.reverse.map (fun c => (c.ind : Int))).Pairwise (fun a b => b < a) := by
    rw [List.pairwise_map, List.pairwise_reverse]
    exact h.imp (fun h => by omega)
  have := h1.sublist hs
  simpa using this

theorem pair_of_sorted {l : List Int} (h : l.Pairwise (fun a b => b < a)) {a b : Int} (ha : a ∈ l) (hb : b ∈ l) (hab : b < a) : [a, b].Sublist l := by
  induction l with
  | nil => simp at ha
  | cons c l ih =>
    obtain ⟨h1, h2⟩ := List.pairwise_cons.1 h
    rcases List.mem_cons.1 ha with rfl | ha2 <;> rcases List.mem_cons.1 hb with rfl | hb2
    · omega
    · exact List.Sublist.cons_cons _ (List.singleton_sublist.2 hb2)
    · have := h1 a ha2; omega
    · exact (ih h2 ha2 hb2).cons _

theorem mem_lefts_keys {t : PTree} {a : Int} : a ∈ t.lefts.reverse.map (fun c => (c.ind : Int)) ↔ ∃ c ∈ t.children, c.ind < t.ind ∧ a = c.ind := by
  simp only [List.mem_map, List.mem_reverse, mem_lefts]
  constructor
  · rintro ⟨c, ⟨h1, h2⟩, rfl⟩; exact ⟨c, h1, h2, rfl⟩
  · rintro ⟨c, h1, h2, rfl⟩; exact ⟨c, ⟨h1, h2⟩, rfl⟩

theorem mem_rights_keys {t : PTree} {a : Int} : a ∈ t.rights.reverse.map (fun c => (c.ind : Int)) ↔ ∃ c ∈ t.children, t.ind < c.ind ∧ a = c.ind := by
  simp only [List.mem_map, List.mem_reverse, mem_rights]
  constructor
  · rintro ⟨c, ⟨h1, h2⟩, rfl⟩; exact ⟨c, h1, h2, rfl⟩
  · rintro ⟨c, h1, h2, rfl⟩; exact ⟨c, ⟨h1, h2⟩, rfl⟩

/-- T1: what comes after a word `b` to the right lies between. -/
theorem after_right {p : Int} {t : PTree} (h : t.Projective) (hp : ParOutside p t) {b o : Int} (hb : (t.ind : Int) < b)
    (hs : [b, o].Sublist ((fullComps p t).map (·.1))) : (t.ind : Int) < o ∧ o < b ∧ ∃ c ∈ t.children, o = c.ind := by
  have hbp : b = p → ∀ a ∈ t.inds, (a : Int) < b := by
    rintro rfl a ha
    rcases hp with h | h
    · exact h a ha
    · have := h _ (ind_mem_inds t); omega
  rw [keys_fullComps] at hs
  have hno : ∀ a ∈ t.lefts.reverse.map (fun c => (c.ind : Int)), a ≠ b := by
    intro a ha; obtain ⟨c, _, h1, rfl⟩ := mem_lefts_keys.1 ha; omega
  rcases keys_pair hs with h1 | ⟨h1, _⟩ | ⟨h1, _⟩ | ⟨rfl, h1⟩ | h1
  · exact absurd rfl (hno _ (h1.subset (by simp)))
  · exact absurd rfl (hno _ h1)
  · exact absurd rfl (hno _ h1)
  · obtain ⟨c, hc, h2, rfl⟩ := mem_rights_keys.1 h1
    exact ⟨by omega, hbp rfl _ (child_ind_mem hc), c, hc, rfl⟩
  · obtain ⟨c, hc, h2, rfl⟩ := mem_rights_keys.1 (h1.subset (List.mem_cons_of_mem _ (List.mem_singleton.2 rfl)))
    exact ⟨by omega, sorted_pair (rights_strict h) h1, c, hc, rfl⟩

/-- T2: what comes before a word `a` to the left lies between. -/
theorem before_left {p : Int} {t : PTree} (h : t.Projective) (hp : ParOutside p t) {a o : Int} (ha : a < (t.ind : Int))
    (hs : [o, a].Sublist ((fullComps p t).map (·.1))) : a < o ∧ o < (t.ind : Int) ∧ ∃ c ∈ t.children, o = c.ind := by
  have hap : a = p → ∀ x ∈ t.inds, a < (x : Int) := by
    rintro rfl x hx
    rcases hp with h | h
    · have := h _ (ind_mem_inds t); omega
    · exact h x hx
  rw [keys_fullComps] at hs
  have hno : ∀ x ∈ t.rights.reverse.map (fun c => (c.ind : Int)), x ≠ a := by
    intro x hx; obtain ⟨c, _, h1, rfl⟩ := mem_rights_keys.1 hx; omega
  rcases keys_pair hs with h1 | ⟨h1, rfl⟩ | ⟨_, h1⟩ | ⟨_, h1⟩ | h1
  · obtain ⟨c, hc, h2, rfl⟩ := mem_lefts_keys.1 (h1.subset (List.mem_cons_self))
    exact ⟨sorted_pair (lefts_strict h) h1, by omega, c, hc, rfl⟩
  · obtain ⟨c, hc, h2, rfl⟩ := mem_lefts_keys.1 h1
    exact ⟨hap rfl _ (child_ind_mem hc), by omega, c, hc, rfl⟩
  · exact absurd rfl (hno _ h1)
  · exact absurd rfl (hno _ h1)
  · exact absurd rfl (hno _ (h1.subset (List.mem_cons_of_mem _ (List.mem_singleton.2 rfl))))

/-- T3: a child nearer to the right comes later. -/
theorem right_order {p : Int} {t : PTree} (h : t.Projective) {b : Int} {w : PTree} (hb : b ∈ (fullComps p t).map (·.1)) (hw : w ∈ t.children)
    (h1 : t.ind < w.ind) (h2 : (w.ind : Int) < b) : [b, (w.ind : Int)].Sublist ((fullComps p t).map (·.1)) := by
  have hwr := mem_rights_keys.2 ⟨w, hw, h1, rfl⟩
  have hsort : (t.rights.reverse.map (fun c => (c.ind : Int))).Pairwise (fun a b => b < a) := by
    rw [List.pairwise_map, List.pairwise_reverse]
    exact (rights_strict h).imp (fun h => by omega)
  rw [mem_keys h] at hb
  rw [keys_fullComps]
  refine List.Sublist.trans ?_ (List.sublist_append_right _ _)
  rcases hb with rfl | ⟨c, hc, rfl⟩
  · exact List.Sublist.cons_cons _ (List.singleton_sublist.2 hwr)
  · exact (pair_of_sorted hsort (mem_rights_keys.2 ⟨c, hc, by omega, rfl⟩) hwr h2).cons _

/-- T4: a child nearer to the left comes earlier. -/
theorem left_order {p : Int} {t : PTree} (h : t.Projective) {a : Int} {w : PTree} (ha : a ∈ (fullComps p t).map (·.1)) (hw : w ∈ t.children)
    (h1 : w.ind < t.ind) (h2 : a < (w.ind : Int)) : [(w.ind : Int), a].Sublist ((fullComps p t).map (·.1)) := by
  have hwl := mem_lefts_keys.2 ⟨w, hw, h1, rfl⟩
  have hsort : (t.lefts.reverse.map (fun c => (c.ind : Int))).Pairwise (fun a b => b < a) := by
    rw [List.pairwise_map, List.pairwise_reverse]
    exact (lefts_strict h).imp (fun h => by omega)
  rw [mem_keys h] at ha
  rw [keys_fullComps]
  rcases ha with rfl | ⟨c, hc, rfl⟩
  · rw [show [(w.ind : Int), a] = [(w.ind : Int)] ++ [a] from rfl]
    exact List.Sublist.append (List.singleton_sublist.2 hwl) (List.singleton_sublist.2 (by simp))
  · exact (pair_of_sorted hsort hwl (mem_lefts_keys.2 ⟨c, hc, by omega, rfl⟩) h2).trans (List.sublist_append_left _ _)

end PTree
end Lambeq
