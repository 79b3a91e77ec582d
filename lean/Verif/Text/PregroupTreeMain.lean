import Verif.Text.PregroupTreeNest

/-!
# Pregroup trees: the list of cups
-/

namespace Lambeq
namespace PTree
open GDiagram Diagram
set_option linter.unusedSimpArgs false

def toMor (c : Nat × Nat) : Mor := (.cup, (c.1 : Int), (c.2 : Int))

/-! ## The edges -/

theorem edges_fst (t : PTree) : (t.edges.map (·.1)).Perm (t.children.flatMap inds) := by
  induction t using ind' with
  | H w i ty cs ih =>
    rw [edges_node, List.map_append, List.map_map, List.map_flatMap]
    have h1 : (cs.flatMap (fun c => c.edges.map (·.1))).Perm (cs.flatMap (fun c => c.children.flatMap inds)) :=
      flatMap_perm_congr _ _ _ (fun c hc => ih c hc)
    have h2 : cs.flatMap inds = cs.flatMap (fun c => c.ind :: c.children.flatMap inds) := by
      congr 1; funext c; exact inds_eq c
    show List.Perm _ (cs.flatMap inds)
    rw [h2]
    exact (List.Perm.append_left _ h1).trans (flatMap_cons_perm _ _ cs).symm

theorem edges_nodup {t : PTree} (h : t.Projective) : (t.edges.map (·.1)).Nodup := by
  have := nodup_inds t h
  rw [inds_eq] at this
  exact (edges_fst t).nodup_iff.2 (List.nodup_cons.1 this).2

theorem edge_asymm (t : PTree) (h : t.Projective) {c p : Nat} (h1 : (c, p) ∈ t.edges) (h2 : (p, c) ∈ t.edges) : False := by
  induction t using ind' with
  | H w i ty cs ih =>
    obtain ⟨g1, g2, g3⟩ := projective_node.1 h
    rcases mem_edges_node.1 h1 with ⟨d, hd, e⟩ | ⟨d, hd, he⟩
    · simp only [Prod.mk.injEq] at e
      exact (edge_mem h h2).2.2 e.2
    · rcases mem_edges_node.1 h2 with ⟨d', hd', e⟩ | ⟨d', hd', he'⟩
      · simp only [Prod.mk.injEq] at e
        exact (edge_mem h h1).2.2 e.2
      · rcases pairwise_apart g2 hd hd' with rfl | ha
        · exact ih d hd (g3 d hd) he he'
        · have k1 := (edge_mem (g3 d hd) he).1
          have k2 := (edge_mem (g3 d' hd') he').2.1
          rcases ha with ha | ha <;> have := ha c k1 c k2 <;> omega

theorem norm_linked {t : PTree} (h : t.Projective) {e : Nat × Nat} (he : e ∈ t.edges) : Linked t (norm e).1 (norm e).2 := by
  have hne := edge_irrefl h he
  rcases Nat.lt_or_gt_of_ne hne with hlt | hlt
  · have : norm e = (e.1, e.2) := Prod.ext (by simp only [norm]; omega) (by simp only [norm]; omega)
    rw [this]; exact ⟨hlt, .inl he⟩
  · have : norm e = (e.2, e.1) := Prod.ext (by simp only [norm]; omega) (by simp only [norm]; omega)
    rw [this]; exact ⟨hlt, .inr he⟩

theorem linked_norm {t : PTree} {a b : Nat} (h : Linked t a b) : (a, b) ∈ t.edges.map norm := by
  rcases h.2 with he | he
  · exact List.mem_map.2 ⟨_, he, by have := h.1; simp [norm]; omega⟩
  · exact List.mem_map.2 ⟨_, he, by have := h.1; simp [norm]; omega⟩

theorem norm_nodup {t : PTree} (h : t.Projective) : (t.edges.map norm).Nodup := by
  have h0 : t.edges.Nodup := List.Nodup.of_map _ (edges_nodup h)
  refine (List.nodup_map_iff_inj_on h0).2 ?_
  intro e he e' he' heq
  have : e = e' ∨ (e.2 = e'.1 ∧ e.1 = e'.2) := by
    simp only [norm, Prod.mk.injEq] at heq
    rcases (by omega : (e.1 = e'.1 ∧ e.2 = e'.2) ∨ (e.2 = e'.1 ∧ e.1 = e'.2)) with h | h
    · exact .inl (Prod.ext h.1 h.2)
    · exact .inr h
  rcases this with rfl | ⟨h1, h2⟩
  · rfl
  · exfalso
    have : e' = (e.2, e.1) := Prod.ext h1.symm h2.symm
    rw [this] at he'
    exact edge_asymm t h he he'

/-! ## The cups of one edge -/

theorem reverse_range'_zip (f g n : Nat) : ((List.range' f n).reverse.zip (List.range' g n)) = (List.range n).map (fun j => (f + (n - 1 - j), g + j)) := by
  apply List.ext_getElem
  · simp
  · intro k h1 h2
    simp at h1 h2
    simp [List.getElem_zip, List.getElem_reverse, List.getElem_range']

theorem edgeCups_spec {root : PTree} {W : List (List Comp)} (S : Setup root W) {e : Nat × Nat} (h : Linked root e.1 e.2) :
    ∃ L : List (Nat × Nat), edgeCups (compDicts 0 W) e = .ok (L.map toMor) ∧ L.Nodup ∧ ∀ c, c ∈ L ↔ CupOf W e c := by
  obtain ⟨wa, wb, ta, tb, g1, g2, g3, g4, g5⟩ := S.ends h
  obtain ⟨t1, f, d1, d2, d3⟩ := dictGet_spec g1 (List.mem_map_of_mem (f := (·.1)) g3)
  obtain ⟨t2, g, d4, d5, d6⟩ := dictGet_spec g2 (List.mem_map_of_mem (f := (·.1)) g4)
  have e1 := comp_unique (S.keys_nodup wa (List.mem_of_getElem? g1)) g3 d2
  subst e1
  have e2 := comp_unique (S.keys_nodup wb (List.mem_of_getElem? g2)) g4 d5
  subst e2
  have hl : tb.length = ta.length := by rw [g5]; simp
  refine ⟨(List.range ta.length).map (fun j => (f + (ta.length - 1 - j), g + j)), ?_, ?_, ?_⟩
  · simp only [edgeCups, d1, d4, List.length_range', hl, if_true]
    rw [reverse_range'_zip]
    rfl
  · rw [List.Nodup, List.pairwise_map]
    refine List.nodup_range.imp ?_
    intro a b hab heq
    simp only [Prod.mk.injEq] at heq
    omega
  · intro c
    simp only [List.mem_map, List.mem_range]
    constructor
    · rintro ⟨j, hj, rfl⟩
      exact ⟨wa, ta, j, g1, g3, hj, d3 _ (by omega), d6 _ (by omega)⟩
    · rintro ⟨w, t, j, k1, k2, k3, k4, k5⟩
      rw [g1] at k1
      cases k1
      have := comp_unique (S.keys_nodup wa (List.mem_of_getElem? g1)) g3 k2
      subst this
      refine ⟨j, k3, ?_⟩
      have h1 := tag_inj S.keys_nodup (d3 (ta.length - 1 - j) (by omega)) k4
      have h2 := tag_inj S.keys_nodup (d6 j (by omega)) k5
      exact Prod.ext h1 h2

/-! ## All cups -/

theorem mapM_edgeCups (ds : List CDict) (es : List (Nat × Nat)) (F : Nat × Nat → List (Nat × Nat)) (h : ∀ e ∈ es, edgeCups ds e = .ok ((F e).map toMor)) :
    es.mapM (edgeCups ds) = .ok (es.map (fun e => (F e).map toMor)) := by
  induction es with
  | nil => rfl
  | cons e es ih =>
    rw [List.mapM_cons, h e (by simp), ih (fun e he => h e (by simp [he]))]
    rfl

theorem span_le (c d : Nat × Nat) (hc : c.1 < c.2) (hd : d.1 < d.2)
    (h : (((toMor c).2.1 - (toMor c).2.2).natAbs : Int) - 1 ≤ (((toMor d).2.1 - (toMor d).2.2).natAbs : Int) - 1) : c.2 - c.1 ≤ d.2 - d.1 := by
  simp only [toMor] at h; omega

/-- The morphisms of the diagram: exactly the cups of the edges, sorted by their span. -/
theorem cupsOf_spec {root : PTree} {W : List (List Comp)} (S : Setup root W) {es : List (Nat × Nat)} (hes : es.Perm (root.edges.map norm)) :
    ∃ cs : List (Nat × Nat), cupsOf (compDicts 0 W) es = .ok (cs.map toMor) ∧ cs.Nodup ∧
      (∀ c, c ∈ cs ↔ ∃ e, Linked root e.1 e.2 ∧ CupOf W e c) ∧ (∀ c ∈ cs, c.1 < c.2) ∧ cs.Pairwise (fun a b => a.2 - a.1 ≤ b.2 - b.1) := by
  have hlink : ∀ e, e ∈ es ↔ Linked root e.1 e.2 := by
    intro e
    rw [hes.mem_iff]
    constructor
    · intro h
      obtain ⟨e', he', rfl⟩ := List.mem_map.1 h
      exact norm_linked S.proj he'
    · exact linked_norm
  have hnd : es.Nodup := hes.nodup_iff.2 (norm_nodup S.proj)
  classical
  choose! F hF using fun (e : Nat × Nat) (h : Linked root e.1 e.2) => edgeCups_spec S h
  have hlt : ∀ e c, Linked root e.1 e.2 → CupOf W e c → c.1 < c.2 := by
    rintro e c hL ⟨w, t, j, _, _, _, k4, k5⟩
    exact lt_of_before S.keys_nodup k4 k5 (.inl hL.1)
  have hmap := mapM_edgeCups (compDicts 0 W) es F (fun e he => (hF e ((hlink e).1 he)).1)
  have hall : ∀ c, c ∈ es.flatMap F ↔ ∃ e, Linked root e.1 e.2 ∧ CupOf W e c := by
    intro c
    rw [List.mem_flatMap]
    constructor
    · rintro ⟨e, he, hc⟩
      exact ⟨e, (hlink e).1 he, ((hF e ((hlink e).1 he)).2.2 c).1 hc⟩
    · rintro ⟨e, he, hc⟩
      exact ⟨e, (hlink e).2 he, ((hF e he).2.2 c).2 hc⟩
  have hflat : (es.map (fun e => (F e).map toMor)).flatten = (es.flatMap F).map toMor := by
    rw [List.map_flatMap, List.flatMap_def]
  have hN : (es.flatMap F).Nodup := by
    rw [List.nodup_flatMap]
    refine ⟨fun e he => (hF e ((hlink e).1 he)).2.1, ?_⟩
    refine List.Pairwise.imp_of_mem ?_ hnd
    intro e e' he he' hne c hc hc'
    obtain ⟨_, _, _, _, _, _, k4, _⟩ := ((hF e ((hlink e).1 he)).2.2 c).1 hc
    obtain ⟨_, _, _, _, _, _, k4', _⟩ := ((hF e' ((hlink e').1 he')).2.2 c).1 hc'
    rw [k4] at k4'
    simp only [Option.some.injEq, Prod.mk.injEq] at k4'
    exact hne (Prod.ext k4'.1 (by omega))
  generalize hl : es.flatMap F = l at *
  have hperm : (sortMors (l.map toMor)).Perm (l.map toMor) := List.perm_insertionSort _ _
  have hdec : ∀ c, ((toMor c).2.1.toNat, (toMor c).2.2.toNat) = c := by intro c; simp [toMor]
  have hback : ((sortMors (l.map toMor)).map (fun m => (m.2.1.toNat, m.2.2.toNat))).map toMor = sortMors (l.map toMor) := by
    rw [List.map_map]
    conv_rhs => rw [← List.map_id (sortMors (l.map toMor))]
    apply List.map_congr_left
    intro m hm
    obtain ⟨c, _, rfl⟩ := List.mem_map.1 (hperm.mem_iff.1 hm)
    simp only [Function.comp_apply, hdec, _root_.id]
  have hp2 : ((sortMors (l.map toMor)).map (fun m => (m.2.1.toNat, m.2.2.toNat))).Perm l := by
    refine (hperm.map _).trans ?_
    rw [List.map_map]
    have : ((fun m : Mor => (m.2.1.toNat, m.2.2.toNat)) ∘ toMor) = _root_.id := by funext c; exact hdec c
    rw [this, List.map_id]
  have hlt' : ∀ c ∈ (sortMors (l.map toMor)).map (fun m => (m.2.1.toNat, m.2.2.toNat)), c.1 < c.2 := by
    intro c hc
    obtain ⟨e, h1, h2⟩ := (hall c).1 (hp2.mem_iff.1 hc)
    exact hlt e c h1 h2
  have hsorted : (sortMors (l.map toMor)).Pairwise (fun a b => ((a.2.1 - a.2.2).natAbs : Int) - 1 ≤ ((b.2.1 - b.2.2).natAbs : Int) - 1) := by
    unfold sortMors
    have : Std.Total (fun a b : Mor => ((a.2.1 - a.2.2).natAbs : Int) - 1 ≤ ((b.2.1 - b.2.2).natAbs : Int) - 1) := ⟨fun a b => by omega⟩
    have : IsTrans Mor (fun a b : Mor => ((a.2.1 - a.2.2).natAbs : Int) - 1 ≤ ((b.2.1 - b.2.2).natAbs : Int) - 1) := ⟨fun a b c h1 h2 => by omega⟩
    exact List.pairwise_insertionSort _ _
  refine ⟨(sortMors (l.map toMor)).map (fun m => (m.2.1.toNat, m.2.2.toNat)), ?_, hp2.nodup_iff.2 hN, ?_, hlt', ?_⟩
  · simp only [cupsOf, hmap, hflat]
    rw [hback]
  · intro c
    rw [hp2.mem_iff]
    exact hall c
  · have := hsorted
    rw [← hback, List.pairwise_map] at this
    exact List.Pairwise.imp_of_mem (fun {a b} ha hb h => span_le a b (hlt' a ha) (hlt' b hb) h) this

theorem cups_disj {root : PTree} {W : List (List Comp)} (S : Setup root W) {e e' c c' : Nat × Nat} (h1 : Linked root e.1 e.2) (h2 : CupOf W e c)
    (h1' : Linked root e'.1 e'.2) (h2' : CupOf W e' c') : c = c' ∨ Disj c c' := by
  obtain ⟨w, t, j, k1, k2, k3, k4, k5⟩ := h2
  obtain ⟨w', t', j', k1', k2', k3', k4', k5'⟩ := h2'
  have key : e = e' → t.length - 1 - j = t'.length - 1 - j' ∨ j = j' → c = c' := by
    rintro rfl hj
    rw [k1] at k1'
    cases k1'
    have := comp_unique (S.keys_nodup w (List.mem_of_getElem? k1)) k2 k2'
    subst this
    have hj : j = j' := by omega
    subst hj
    exact Prod.ext (tag_inj S.keys_nodup k4 k4') (tag_inj S.keys_nodup k5 k5')
  have hlt := h1.1
  have hlt' := h1'.1
  by_cases hcc : c = c'
  · exact .inl hcc
  · right
    refine ⟨?_, ?_, ?_, ?_⟩ <;> intro h
    · rw [h, k4'] at k4
      simp only [Option.some.injEq, Prod.mk.injEq] at k4
      exact hcc (key (Prod.ext k4.1.symm (by omega)) (.inl k4.2.2.symm))
    · rw [h, k5'] at k4
      simp only [Option.some.injEq, Prod.mk.injEq] at k4
      omega
    · rw [h, k4'] at k5
      simp only [Option.some.injEq, Prod.mk.injEq] at k5
      omega
    · rw [h, k5'] at k5
      simp only [Option.some.injEq, Prod.mk.injEq] at k5
      exact hcc (key (Prod.ext (by omega) k5.1.symm) (.inr k5.2.2.symm))

end PTree
end Lambeq
