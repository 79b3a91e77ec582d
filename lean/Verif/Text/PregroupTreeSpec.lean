import Verif.Text.PregroupTree

/-!
# Pregroup trees to diagrams: specification and facts about projective trees (C86)
-/

namespace Lambeq
open GDiagram Diagram
set_option linter.unusedSimpArgs false
namespace PTree

/-! ## Specification -/

mutual
/-- all subtrees -/
def subs : PTree → List PTree
  | node w i t cs => node w i t cs :: subss cs
def subss : List PTree → List PTree
  | [] => []
  | c :: cs => c.subs ++ subss cs
end

/-- the indices of the words of a tree -/
def inds (t : PTree) : List Nat := t.subs.map ind

/-- all words of `c` are on one side of the word `i` -/
def OneSide (i : Nat) (c : PTree) : Prop := (∀ a ∈ c.inds, a < i) ∨ (∀ a ∈ c.inds, i < a)

/-- all words of `c` are on one side of all words of `d` -/
def Apart (c d : PTree) : Prop := (∀ a ∈ c.inds, ∀ b ∈ d.inds, a < b) ∨ (∀ a ∈ c.inds, ∀ b ∈ d.inds, b < a)

/-- The tree is projective: under each node, no two branches overlap in the sentence, and none of them lies around the word of the node. -/
def Projective (t : PTree) : Prop := ∀ s ∈ t.subs, (∀ c ∈ s.children, OneSide s.ind c) ∧ s.children.Pairwise Apart

/-- the pairs (index of a word, index of its parent) -/
def edges (t : PTree) : List (Nat × Nat) := t.subs.flatMap (fun s => s.children.map (fun c => (c.ind, s.ind)))

mutual
/-- all subtrees with the index of their parent, -1 for the root -/
def withParents (par : Int) : PTree → List (Int × PTree)
  | node w i t cs => (par, node w i t cs) :: withParentss i cs
def withParentss (par : Int) : List PTree → List (Int × PTree)
  | [] => []
  | c :: cs => c.withParents par ++ withParentss par cs
end

/-- the children to the left of a word, from left to right -/
def lefts (t : PTree) : List PTree := (t.children.insertionSort (fun a b => a.ind ≤ b.ind)).filter (fun c => c.ind < t.ind)

/-- the children to the right of a word, from left to right -/
def rights (t : PTree) : List PTree := (t.children.insertionSort (fun a b => a.ind ≤ b.ind)).filter (fun c => t.ind < c.ind)

/-- The components of the type of a word, each with the word it is connected to: the right adjoints of the types of the children to the left, the nearest one
first, then its own type (for the parent), then the left adjoints of the types of the children to the right, the nearest one last. -/
def fullComps (par : Int) (t : PTree) : List Comp :=
  t.lefts.reverse.map (fun c => ((c.ind : Int), c.typ.r)) ++ (par, t.typ) :: t.rights.reverse.map (fun c => ((c.ind : Int), c.typ.l))

/-! ## Basic facts -/

theorem subss_eq (cs : List PTree) : subss cs = cs.flatMap subs := by
  induction cs with
  | nil => rfl
  | cons c cs ih => simp [subss, ih]

theorem withParentss_eq (par : Int) (cs : List PTree) : withParentss par cs = cs.flatMap (withParents par) := by
  induction cs with
  | nil => rfl
  | cons c cs ih => simp [withParentss, ih]

theorem subs_node (w i t cs) : (node w i t cs).subs = node w i t cs :: cs.flatMap subs := by rw [subs, subss_eq]

theorem withParents_node (par w i t cs) : (node w i t cs).withParents par = (par, node w i t cs) :: cs.flatMap (withParents i) := by
  rw [withParents, withParentss_eq]

/-- induction over trees -/
theorem ind' {P : PTree → Prop} (H : ∀ w i t cs, (∀ c ∈ cs, P c) → P (node w i t cs)) : ∀ t, P t := by
  intro t
  refine PTree.rec (motive_1 := P) (motive_2 := fun cs => ∀ c ∈ cs, P c) ?_ ?_ ?_ t
  · exact fun w i t cs ih => H w i t cs ih
  · simp
  · intro c cs h1 h2 d hd
    rcases List.mem_cons.1 hd with rfl | hd
    · exact h1
    · exact h2 d hd

theorem inds_node (w i t cs) : (node w i t cs).inds = i :: cs.flatMap inds := by
  simp [inds, subs_node, ind, List.map_flatMap]
  rfl

theorem edges_node (w i t cs) : (node w i t cs).edges = cs.map (fun c => (c.ind, i)) ++ cs.flatMap edges := by
  rw [edges, subs_node, List.flatMap_cons, List.flatMap_assoc]; rfl

theorem ind_mem_inds (t : PTree) : t.ind ∈ t.inds := by
  obtain ⟨w, i, ty, cs⟩ := t; rw [inds_node]; simp [ind]

theorem mem_inds_node {w i t cs a} : a ∈ (node w i t cs).inds ↔ a = i ∨ ∃ c ∈ cs, a ∈ c.inds := by
  rw [inds_node]; simp

theorem mem_edges_node {w i t cs e} : e ∈ (node w i t cs).edges ↔ (∃ c ∈ cs, e = (c.ind, i)) ∨ ∃ c ∈ cs, e ∈ c.edges := by
  rw [edges_node]
  simp only [List.mem_append, List.mem_map, List.mem_flatMap]
  constructor
  · rintro (⟨c, h, rfl⟩ | h)
    · exact .inl ⟨c, h, rfl⟩
    · exact .inr h
  · rintro (⟨c, h, rfl⟩ | h)
    · exact .inl ⟨c, h, rfl⟩
    · exact .inr h

theorem projective_node {w i t cs} : (node w i t cs).Projective ↔ (∀ c ∈ cs, OneSide i c) ∧ cs.Pairwise Apart ∧ ∀ c ∈ cs, c.Projective := by
  simp only [Projective, subs_node, List.mem_cons, List.mem_flatMap]
  constructor
  · intro H
    exact ⟨(H _ (.inl rfl)).1, (H _ (.inl rfl)).2, fun c hc s hs => H s (.inr ⟨c, hc, hs⟩)⟩
  · rintro ⟨h1, h2, h3⟩ s (rfl | ⟨c, hc, hs⟩)
    · exact ⟨h1, h2⟩
    · exact h3 c hc s hs

theorem edges_inds (t : PTree) (e : Nat × Nat) (h : e ∈ t.edges) : e.1 ∈ t.inds ∧ e.2 ∈ t.inds ∧ e.1 ≠ t.ind ∨ ¬ t.Projective := by
  induction t using ind' generalizing e with
  | H w i ty cs ih =>
    by_cases hp : (node w i ty cs).Projective
    · left
      obtain ⟨h1, _, h3⟩ := projective_node.1 hp
      rcases mem_edges_node.1 h with ⟨c, hc, rfl⟩ | ⟨c, hc, he⟩
      · refine ⟨mem_inds_node.2 (.inr ⟨c, hc, ind_mem_inds c⟩), mem_inds_node.2 (.inl rfl), ?_⟩
        rcases h1 c hc with h | h <;> have := h _ (ind_mem_inds c) <;> simp only [ind] at * <;> omega
      · rcases ih c hc e he with ⟨a, b, _⟩ | hn
        · refine ⟨mem_inds_node.2 (.inr ⟨c, hc, a⟩), mem_inds_node.2 (.inr ⟨c, hc, b⟩), ?_⟩
          rcases h1 c hc with h | h <;> have := h _ a <;> simp only [ind] at * <;> omega
        · exact absurd (h3 c hc) hn
    · exact .inr hp

theorem edge_mem {t : PTree} (hp : t.Projective) {c p : Nat} (h : (c, p) ∈ t.edges) : c ∈ t.inds ∧ p ∈ t.inds ∧ c ≠ t.ind := by
  rcases edges_inds t _ h with h | h
  · exact h
  · exact absurd hp h

/-- two different children, or the same one -/
theorem pairwise_apart {cs : List PTree} (h : cs.Pairwise Apart) {c d : PTree} (hc : c ∈ cs) (hd : d ∈ cs) : c = d ∨ Apart c d := by
  induction h with
  | nil => simp at hc
  | @cons a l h1 h2 ih =>
    rcases List.mem_cons.1 hc with rfl | hc2 <;> rcases List.mem_cons.1 hd with rfl | hd2
    · exact .inl rfl
    · exact .inr (h1 d hd2)
    · right
      rcases h1 c hc2 with h | h
      · exact .inr (fun x hx y hy => h y hy x hx)
      · exact .inl (fun x hx y hy => h y hy x hx)
    · exact ih hc2 hd2

theorem nodup_inds (t : PTree) (h : t.Projective) : t.inds.Nodup := by
  induction t using ind' with
  | H w i ty cs ih =>
    obtain ⟨h1, h2, h3⟩ := projective_node.1 h
    rw [inds_node, List.nodup_cons]
    refine ⟨?_, ?_⟩
    · simp only [List.mem_flatMap, not_exists, not_and]
      intro c hc hi
      rcases h1 c hc with h | h <;> have := h i hi <;> omega
    · rw [List.nodup_flatMap]
      refine ⟨fun c hc => ih c hc (h3 c hc), h2.imp ?_⟩
      rintro c d hcd a hc hd
      rcases hcd with h | h <;> have := h a hc a hd <;> omega

/-- Between the ends of an edge there is never the root. -/
theorem root_not_covered (t : PTree) (h : t.Projective) {c p : Nat} (he : (c, p) ∈ t.edges) : ¬ (min c p < t.ind ∧ t.ind < max c p) := by
  cases t with
  | node w i ty cs =>
    obtain ⟨h1, h2, h3⟩ := projective_node.1 h
    simp only [ind]
    rcases mem_edges_node.1 he with ⟨d, hd, e⟩ | ⟨d, hd, he⟩
    · simp only [Prod.mk.injEq] at e; omega
    · obtain ⟨a, b, _⟩ := edge_mem (h3 d hd) he
      rcases h1 d hd with h | h <;> have := h _ a <;> have := h _ b <;> omega

/-- A child and its parent are on the same side of the parent's parent. -/
theorem same_side (t : PTree) (h : t.Projective) {o c p : Nat} (h1 : (o, c) ∈ t.edges) (h2 : (c, p) ∈ t.edges) : o < p ↔ c < p := by
  induction t using ind' with
  | H w i ty cs ih =>
    obtain ⟨g1, g2, g3⟩ := projective_node.1 h
    rcases mem_edges_node.1 h2 with ⟨d, hd, e⟩ | ⟨d, hd, he⟩
    · simp only [Prod.mk.injEq] at e
      obtain ⟨rfl, rfl⟩ := e
      rcases mem_edges_node.1 h1 with ⟨d', hd', e'⟩ | ⟨d', hd', he'⟩
      · simp only [Prod.mk.injEq] at e'
        rcases g1 d hd with h | h <;> have := h _ (ind_mem_inds d) <;> omega
      · obtain ⟨a, b, _⟩ := edge_mem (g3 d' hd') he'
        rcases g1 d' hd' with h | h <;> have := h _ a <;> have := h _ b <;> omega
    · obtain ⟨a, b, hne⟩ := edge_mem (g3 d hd) he
      rcases mem_edges_node.1 h1 with ⟨d', hd', e'⟩ | ⟨d', hd', he'⟩
      · simp only [Prod.mk.injEq] at e'
        rcases g1 d hd with h | h <;> have := h _ a <;> omega
      · obtain ⟨a', b', _⟩ := edge_mem (g3 d' hd') he'
        rcases pairwise_apart g2 hd hd' with rfl | h
        · exact ih d hd (g3 d hd) he' he
        · rcases h with h | h <;> have := h _ a _ b' <;> omega

/-- What a word between the ends of an edge is connected to. -/
theorem between (t : PTree) (h : t.Projective) {c p w o : Nat} (he : (c, p) ∈ t.edges) (hw : w ∈ t.inds) (hb : min c p < w ∧ w < max c p)
    (ho : (w, o) ∈ t.edges ∨ (o, w) ∈ t.edges) :
    min c p ≤ o ∧ o ≤ max c p ∧ (o = c → (w, c) ∈ t.edges) ∧ (o = p → (w, p) ∈ t.edges) := by
  induction t using ind' with
  | H n i ty cs ih =>
    obtain ⟨g1, g2, g3⟩ := projective_node.1 h
    have hwi : w ≠ i := by
      rintro rfl
      exact root_not_covered _ h he hb
    obtain ⟨d', hd', hw'⟩ := (mem_inds_node.1 hw).resolve_left hwi
    rcases mem_edges_node.1 he with ⟨d, hd, e⟩ | ⟨d, hd, he'⟩
    · -- the edge from the child `d` to the root
      simp only [Prod.mk.injEq] at e
      obtain ⟨rfl, rfl⟩ := e
      have key : ∀ x y, (x, y) ∈ d'.edges → (x = w ∨ y = w) → (x = w → min d.ind p ≤ y ∧ y ≤ max d.ind p ∧ y ≠ p) ∧
          (y = w → min d.ind p ≤ x ∧ x ≤ max d.ind p ∧ x ≠ d.ind ∧ x ≠ p) := by
        intro x y hxy hxw
        obtain ⟨a, b, hne⟩ := edge_mem (g3 d' hd') hxy
        have hroot := root_not_covered d' (g3 d' hd') hxy
        rcases pairwise_apart g2 hd hd' with rfl | hap
        · rcases g1 d hd with h | h <;> have := h _ a <;> have := h _ b <;> have := h _ (ind_mem_inds d) <;> refine ⟨?_, ?_⟩ <;> intro hh <;> subst hh <;> omega
        · rcases g1 d hd with h | h <;> have := h _ (ind_mem_inds d) <;> rcases g1 d' hd' with h' | h' <;> have := h' _ a <;> have := h' _ b <;>
            rcases hap with h2 | h2 <;> have := h2 _ (ind_mem_inds d) _ a <;> have := h2 _ (ind_mem_inds d) _ b <;> refine ⟨?_, ?_⟩ <;> intro hh <;> subst hh <;> omega
      rcases ho with ho | ho
      · rcases mem_edges_node.1 ho with ⟨d2, hd2, e2⟩ | ⟨d2, hd2, ho'⟩
        · simp only [Prod.mk.injEq] at e2
          obtain ⟨rfl, rfl⟩ := e2
          refine ⟨by omega, by omega, ?_, fun _ => ho⟩
          rintro rfl
          exact ho
        · obtain ⟨a, b, _⟩ := edge_mem (g3 d2 hd2) ho'
          have : d2 = d' := by
            rcases pairwise_apart g2 hd2 hd' with rfl | hap
            · rfl
            · rcases hap with h2 | h2 <;> have := h2 _ a _ hw' <;> omega
          subst this
          obtain ⟨k1, k2, k3⟩ := (key _ _ ho' (.inl rfl)).1 rfl
          refine ⟨k1, k2, ?_, fun e => absurd e k3⟩
          rintro rfl
          exact ho
      · rcases mem_edges_node.1 ho with ⟨d2, hd2, e2⟩ | ⟨d2, hd2, ho'⟩
        · simp only [Prod.mk.injEq] at e2
          exact absurd e2.2 hwi
        · obtain ⟨a, b, _⟩ := edge_mem (g3 d2 hd2) ho'
          have : d2 = d' := by
            rcases pairwise_apart g2 hd2 hd' with rfl | hap
            · rfl
            · rcases hap with h2 | h2 <;> have := h2 _ b _ hw' <;> omega
          subst this
          obtain ⟨k1, k2, k3, k4⟩ := (key _ _ ho' (.inr rfl)).2 rfl
          exact ⟨k1, k2, fun e => absurd e k3, fun e => absurd e k4⟩
    · -- an edge inside the branch `d`
      obtain ⟨a, b, hne⟩ := edge_mem (g3 d hd) he'
      have : d' = d := by
        rcases pairwise_apart g2 hd hd' with rfl | hap
        · rfl
        · rcases hap with h2 | h2 <;> have := h2 _ a _ hw' <;> have := h2 _ b _ hw' <;> omega
      subst this
      have hroot := root_not_covered d' (g3 d' hd) he'
      have hin : (w, o) ∈ d'.edges ∨ (o, w) ∈ d'.edges := by
        rcases ho with ho | ho
        · rcases mem_edges_node.1 ho with ⟨d2, hd2, e2⟩ | ⟨d2, hd2, ho'⟩
          · simp only [Prod.mk.injEq] at e2
            obtain ⟨rfl, rfl⟩ := e2
            exfalso
            rcases pairwise_apart g2 hd2 hd with rfl | hap
            · exact hroot hb
            · rcases hap with h2 | h2 <;> have := h2 _ (ind_mem_inds d2) _ hw' <;> omega
          · obtain ⟨a2, b2, _⟩ := edge_mem (g3 d2 hd2) ho'
            rcases pairwise_apart g2 hd2 hd with rfl | hap
            · exact .inl ho'
            · rcases hap with h2 | h2 <;> have := h2 _ a2 _ hw' <;> omega
        · rcases mem_edges_node.1 ho with ⟨d2, hd2, e2⟩ | ⟨d2, hd2, ho'⟩
          · simp only [Prod.mk.injEq] at e2
            exact absurd e2.2 hwi
          · obtain ⟨a2, b2, _⟩ := edge_mem (g3 d2 hd2) ho'
            rcases pairwise_apart g2 hd2 hd with rfl | hap
            · exact .inr ho'
            · rcases hap with h2 | h2 <;> have := h2 _ b2 _ hw' <;> omega
      obtain ⟨k1, k2, k3, k4⟩ := ih d' hd (g3 d' hd) he' hw' hin
      exact ⟨k1, k2, fun e => mem_edges_node.2 (.inr ⟨d', hd, k3 e⟩), fun e => mem_edges_node.2 (.inr ⟨d', hd, k4 e⟩)⟩

end PTree
end Lambeq
