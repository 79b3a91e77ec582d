import Verif.Text.PregroupTreeOrder

/-!
# Pregroup trees: the cups are nested
-/

namespace Lambeq
namespace PTree
set_option linter.unusedSimpArgs false

/-- `word_components` after the loop -/
structure Setup (root : PTree) (W : List (List Comp)) : Prop where
  proj : root.Projective
  full : ∀ x ∈ root.withParents (-1), W[x.2.ind]? = some (fullComps x.1 x.2)
  rest : ∀ k, k ∉ root.inds → ∀ w, W[k]? = some w → w = []

theorem parOutside_root (root : PTree) : ParOutside (-1) root := by
  right; intro a _; omega

namespace Setup
variable {root : PTree} {W : List (List Comp)}

theorem node (S : Setup root W) {i : Nat} (h : i ∈ root.inds) : ∃ p t, (p, t) ∈ root.withParents (-1) ∧ t.ind = i ∧ W[i]? = some (fullComps p t) ∧
    t.Projective ∧ ParOutside p t ∧ t ∈ root.subs ∧ ((p, t) = (-1, root) ∨ ∃ s ∈ root.subs, p = s.ind ∧ t ∈ s.children) ∧
    ∀ c ∈ t.children, ((t.ind : Int), c) ∈ root.withParents (-1) := by
  obtain ⟨t, ht, rfl⟩ := List.mem_map.1 h
  obtain ⟨p, hp⟩ := withParents_exists root (-1) t ht
  obtain ⟨h1, h2, h3, h4, h5⟩ := withParents_spec root (-1) S.proj (parOutside_root root) _ hp
  exact ⟨p, t, hp, rfl, S.full _ hp, h1, h2, h3, h4, h5⟩

theorem keys_nodup (S : Setup root W) : ∀ w ∈ W, (w.map (·.1)).Nodup := by
  intro w hw
  obtain ⟨k, hk⟩ := List.getElem?_of_mem hw
  by_cases h : k ∈ root.inds
  · obtain ⟨p, t, _, rfl, h1, h2, h3, _⟩ := S.node h
    rw [hk] at h1
    cases h1
    exact nodup_keys h2 h3
  · rw [S.rest k h w hk]; simp

theorem mem_inds (S : Setup root W) {i : Nat} {w : List Comp} (hw : W[i]? = some w) {e : Comp} (he : e ∈ w) : i ∈ root.inds := by
  by_contra h
  rw [S.rest i h w hw] at he
  simp at he

/-- the words a word should be connected to -/
theorem nb (S : Setup root W) {i : Nat} {w : List Comp} (hw : W[i]? = some w) {o : Int} (ho : o ∈ w.map (·.1)) :
    (o = -1 ∧ i = root.ind) ∨ ∃ m : Nat, o = m ∧ ((i, m) ∈ root.edges ∨ (m, i) ∈ root.edges) := by
  obtain ⟨e, he, rfl⟩ := List.mem_map.1 ho
  obtain ⟨p, t, h0, rfl, h1, h2, h3, h4, h5, h6⟩ := S.node (S.mem_inds hw he)
  rw [hw] at h1
  cases h1
  rcases (mem_keys h2).1 ho with e1 | ⟨c, hc, e1⟩
  · rcases h5 with h5 | ⟨s, hs, e2, h5⟩
    · simp only [Prod.mk.injEq] at h5
      exact .inl ⟨by rw [e1, h5.1], by rw [h5.2]⟩
    · exact .inr ⟨s.ind, by rw [e1, e2], .inl (mem_edges.2 ⟨s, hs, t, h5, rfl, rfl⟩)⟩
  · exact .inr ⟨c.ind, e1, .inr (mem_edges.2 ⟨t, h4, c, hc, rfl, rfl⟩)⟩

/-- the components at both ends of an edge -/
theorem edge (S : Setup root W) {s d : PTree} (hs : s ∈ root.subs) (hd : d ∈ s.children) :
    ∃ wc wp, W[d.ind]? = some wc ∧ ((s.ind : Int), d.typ) ∈ wc ∧ W[s.ind]? = some wp ∧ ((d.ind : Int), if d.ind < s.ind then d.typ.r else d.typ.l) ∈ wp := by
  obtain ⟨p, hp⟩ := withParents_exists root (-1) s hs
  obtain ⟨h1, h2, h3, h4, h5⟩ := withParents_spec root (-1) S.proj (parOutside_root root) _ hp
  refine ⟨_, _, S.full _ (h5 d hd), ?_, S.full _ hp, ?_⟩
  · simp [fullComps]
  · have hne := h1.child_ne hd
    simp only at hne
    by_cases hlt : d.ind < s.ind
    · rw [if_pos hlt]
      simp only [fullComps, List.mem_append, List.mem_map, List.mem_reverse, mem_lefts]
      exact .inl ⟨d, ⟨hd, hlt⟩, rfl⟩
    · rw [if_neg hlt]
      simp only [fullComps, List.mem_append, List.mem_map, List.mem_reverse, mem_rights, List.mem_cons]
      exact .inr (.inr ⟨d, ⟨hd, by omega⟩, rfl⟩)

end Setup

theorem comp_unique {w : List Comp} (h : (w.map (·.1)).Nodup) {o : Int} {t t' : Ty} (h1 : (o, t) ∈ w) (h2 : (o, t') ∈ w) : t = t' := by
  induction w with
  | nil => simp at h1
  | cons e w ih =>
    simp only [List.map_cons, List.nodup_cons] at h
    rcases List.mem_cons.1 h1 with rfl | h1' <;> rcases List.mem_cons.1 h2 with e2 | h2'
    · simp only [Prod.mk.injEq, true_and] at e2; exact e2.symm
    · exact absurd (List.mem_map_of_mem (f := (·.1)) h2') h.1
    · subst e2; exact absurd (List.mem_map_of_mem (f := (·.1)) h1') h.1
    · exact ih h.2 h1' h2'

/-- The wires `c.1` and `c.2` are joined for the words `e.1` and `e.2`, with the length of the component in `e.1`. -/
def CupOf (W : List (List Comp)) (e c : Nat × Nat) : Prop :=
  ∃ w t j, W[e.1]? = some w ∧ ((e.2 : Int), t) ∈ w ∧ j < t.length ∧ (tags 0 W)[c.1]? = some (e.1, (e.2 : Int), t.length - 1 - j) ∧
    (tags 0 W)[c.2]? = some (e.2, (e.1 : Int), j)

/-- the pairs of connected words, in the order of the sentence -/
def Linked (root : PTree) (a b : Nat) : Prop := a < b ∧ ((a, b) ∈ root.edges ∨ (b, a) ∈ root.edges)

theorem edge_irrefl {t : PTree} (hp : t.Projective) {c p : Nat} (h : (c, p) ∈ t.edges) : c ≠ p := by
  obtain ⟨s, hs, d, hd, rfl, rfl⟩ := mem_edges.1 h
  rcases (hp s hs).1 d hd with h | h <;> have := h _ (ind_mem_inds d) <;> omega

theorem linked_of {root : PTree} (hp : root.Projective) {a b : Nat} (h : (a, b) ∈ root.edges ∨ (b, a) ∈ root.edges) :
    Linked root a b ∨ Linked root b a := by
  have : a ≠ b := by
    rcases h with h | h
    · exact edge_irrefl hp h
    · exact (edge_irrefl hp h).symm
  rcases Nat.lt_or_gt_of_ne this with h' | h'
  · exact .inl ⟨h', h⟩
  · exact .inr ⟨h', h.symm⟩

theorem linked_mem {root : PTree} (hp : root.Projective) {a b : Nat} (h : Linked root a b) : a ∈ root.inds ∧ b ∈ root.inds := by
  rcases h.2 with h | h
  · exact ⟨(edge_mem hp h).1, (edge_mem hp h).2.1⟩
  · exact ⟨(edge_mem hp h).2.1, (edge_mem hp h).1⟩

namespace Setup
variable {root : PTree} {W : List (List Comp)}

/-- both ends have components of the same length -/
theorem ends (S : Setup root W) {a b : Nat} (h : Linked root a b) : ∃ wa wb ta tb, W[a]? = some wa ∧ W[b]? = some wb ∧ ((b : Int), ta) ∈ wa ∧
    ((a : Int), tb) ∈ wb ∧ ta = tb.l := by
  obtain ⟨hlt, h | h⟩ := h
  · obtain ⟨s, hs, d, hd, rfl, rfl⟩ := mem_edges.1 h
    obtain ⟨wc, wp, h1, h2, h3, h4⟩ := S.edge hs hd
    rw [if_pos hlt] at h4
    exact ⟨wc, wp, _, _, h1, h3, h2, h4, (Ty.r_l _).symm⟩
  · obtain ⟨s, hs, d, hd, rfl, rfl⟩ := mem_edges.1 h
    obtain ⟨wc, wp, h1, h2, h3, h4⟩ := S.edge hs hd
    rw [if_neg (by omega)] at h4
    exact ⟨wp, wc, _, _, h3, h1, h4, h2, rfl⟩

/-- for each wire of a component that has a partner word there is the partner wire -/
theorem wire (S : Setup root W) {i : Nat} {w : List Comp} (hw : W[i]? = some w) {o : Nat} {t : Ty} (h : ((o : Int), t) ∈ w) :
    ∃ c, ∀ j, j < t.length → (tags 0 W)[c + j]? = some (i, (o : Int), j) := by
  obtain ⟨t', c, _, h2, h3⟩ := dictGet_spec hw (o := o) (List.mem_map_of_mem (f := (·.1)) h)
  have := comp_unique (S.keys_nodup w (List.mem_of_getElem? hw)) h h2
  subst this
  exact ⟨c, h3⟩

theorem sub (S : Setup root W) {s : PTree} (hs : s ∈ root.subs) : ∃ p, W[s.ind]? = some (fullComps p s) ∧ s.Projective ∧ ParOutside p s := by
  obtain ⟨p, hp⟩ := withParents_exists root (-1) s hs
  obtain ⟨h1, h2, _⟩ := withParents_spec root (-1) S.proj (parOutside_root root) _ hp
  exact ⟨p, S.full _ hp, h1, h2⟩

/-- the other end of a wire for a word to the right -/
theorem partner_right (S : Setup root W) {i m k x : Nat} (hx : (tags 0 W)[x]? = some (i, (m : Int), k)) (h : Linked root i m) :
    ∃ y, CupOf W (i, m) (x, y) := by
  obtain ⟨_, w, t, h1, h2, h3, _⟩ := tags_get hx
  simp only [Nat.sub_zero] at h1 h2 h3
  obtain ⟨wa, wb, ta, tb, g1, g2, g3, g4, g5⟩ := S.ends h
  rw [h1] at g1
  cases g1
  have := comp_unique (S.keys_nodup w (List.mem_of_getElem? h1)) h2 g3
  subst this
  obtain ⟨c, hc⟩ := S.wire g2 g4
  have hl : t.length = tb.length := by rw [g5]; simp
  refine ⟨c + (t.length - 1 - k), w, t, t.length - 1 - k, h1, h2, by omega, ?_, hc _ (by omega)⟩
  rw [hx]
  simp only [Option.some.injEq, Prod.mk.injEq, true_and]
  omega

/-- the other end of a wire for a word to the left -/
theorem partner_left (S : Setup root W) {i m k x : Nat} (hx : (tags 0 W)[x]? = some (i, (m : Int), k)) (h : Linked root m i) :
    ∃ y, CupOf W (m, i) (y, x) := by
  obtain ⟨_, w, t, h1, h2, h3, _⟩ := tags_get hx
  simp only [Nat.sub_zero] at h1 h2 h3
  obtain ⟨wa, wb, ta, tb, g1, g2, g3, g4, g5⟩ := S.ends h
  rw [h1] at g2
  cases g2
  have := comp_unique (S.keys_nodup w (List.mem_of_getElem? h1)) h2 g4
  subst this
  obtain ⟨c, hc⟩ := S.wire g1 g3
  have hl : ta.length = t.length := by rw [g5]; simp
  exact ⟨c + (ta.length - 1 - k), wa, ta, k, g1, g3, by omega, hc _ (by omega), hx⟩

/-- The wires between the two ends of a cup. -/
theorem inside (S : Setup root W) {a b : Nat} (hlt : a < b) {c : Nat × Nat} (hc : CupOf W (a, b) c) {y m k : Nat} {o : Int} (hy : (tags 0 W)[y]? = some (m, o, k))
    (h1 : a ≤ m) (h2 : m ≤ b) (h3 : m = a → ∃ w, W[a]? = some w ∧ [(b : Int), o].Sublist (w.map (·.1)))
    (h4 : m = b → ∃ w, W[b]? = some w ∧ [o, (a : Int)].Sublist (w.map (·.1))) : c.1 < y ∧ y < c.2 := by
  obtain ⟨w, t, j, _, _, _, g1, g2⟩ := hc
  constructor
  · apply lt_of_before S.keys_nodup g1 hy
    rcases Nat.lt_or_eq_of_le h1 with h | rfl
    · exact .inl h
    · exact .inr ⟨rfl, .inl (h3 rfl)⟩
  · apply lt_of_before S.keys_nodup hy g2
    rcases Nat.lt_or_eq_of_le h2 with h | rfl
    · exact .inl h
    · exact .inr ⟨rfl, .inl (h4 rfl)⟩

theorem nest (S : Setup root W) {a b : Nat} (hl : Linked root a b) {c : Nat × Nat} (hc : CupOf W (a, b) c) {x : Nat} (h1 : c.1 < x) (h2 : x < c.2) :
    ∃ e d, Linked root e.1 e.2 ∧ CupOf W e d ∧ (x = d.1 ∨ x = d.2) ∧ c.1 < d.1 ∧ d.2 < c.2 := by
  have hab := hl.1
  obtain ⟨ha, hb⟩ := linked_mem S.proj hl
  have hc' := hc
  obtain ⟨wa, t, j, k1, k2, k3, k4, k5⟩ := hc
  have hx : x < (tags 0 W).length := by
    have := (List.getElem?_eq_some_iff.1 k5).1; omega
  obtain ⟨⟨w, o, k⟩, htag⟩ : ∃ s, (tags 0 W)[x]? = some s := ⟨_, List.getElem?_eq_getElem hx⟩
  have B1 := before_of_lt k4 htag h1
  have B2 := before_of_lt htag k5 h2
  obtain ⟨_, ww, tw, m1, m2, m3, _⟩ := tags_get htag
  simp only [Nat.sub_zero] at m1 m2 m3
  have haw : a ≤ w := by rcases B1 with h | h <;> simp only at h <;> omega
  have hwb : w ≤ b := by rcases B2 with h | h <;> simp only at h <;> omega
  rcases Nat.lt_or_eq_of_le haw with haw | rfl
  · rcases Nat.lt_or_eq_of_le hwb with hwb | rfl
    · -- strictly between
      have hk := List.mem_map_of_mem (f := (·.1)) m2
      obtain ⟨e, he, hmin, hmax⟩ : ∃ e : Nat × Nat, e ∈ root.edges ∧ min e.1 e.2 = a ∧ max e.1 e.2 = b := by
        rcases hl.2 with h | h
        · exact ⟨_, h, by simp only; omega, by simp only; omega⟩
        · exact ⟨_, h, by simp only; omega, by simp only; omega⟩
      rcases S.nb m1 hk with ⟨_, rfl⟩ | ⟨m, hm, hedge⟩
      · exact absurd ⟨by omega, by omega⟩ (root_not_covered root S.proj he)
      · simp only at hm
        subst hm
        obtain ⟨b1, b2, b3, b4⟩ := between root S.proj he (S.mem_inds m1 m2) ⟨by omega, by omega⟩ hedge
        rw [hmin] at b1
        rw [hmax] at b2
        have hma : m = a → (w, a) ∈ root.edges := by
          rintro rfl
          rcases (by omega : m = e.1 ∨ m = e.2) with h | h
          · have := b3 h; rwa [← h] at this
          · have := b4 h; rwa [← h] at this
        have hmb : m = b → (w, b) ∈ root.edges := by
          rintro rfl
          rcases (by omega : m = e.1 ∨ m = e.2) with h | h
          · have := b3 h; rwa [← h] at this
          · have := b4 h; rwa [← h] at this
        have hA : m = a → ∃ v, W[a]? = some v ∧ [(b : Int), (w : Int)].Sublist (v.map (·.1)) := by
          intro h
          obtain ⟨s, hs, d, hd, rfl, hsa⟩ := mem_edges.1 (hma h)
          subst hsa
          obtain ⟨p, q1, q2, q3⟩ := S.sub hs
          refine ⟨_, q1, right_order q2 ?_ hd haw (by omega)⟩
          rw [q1] at k1
          cases k1
          exact List.mem_map_of_mem (f := (·.1)) k2
        have hB : m = b → ∃ v, W[b]? = some v ∧ [(w : Int), (a : Int)].Sublist (v.map (·.1)) := by
          intro h
          obtain ⟨s, hs, d, hd, rfl, hsa⟩ := mem_edges.1 (hmb h)
          subst hsa
          obtain ⟨p, q1, q2, q3⟩ := S.sub hs
          refine ⟨_, q1, left_order q2 ?_ hd hwb (by omega)⟩
          obtain ⟨_, wb, _, _, _, r1, _, r2, _⟩ := S.ends hl
          rw [q1] at r1
          cases r1
          exact List.mem_map_of_mem (f := (·.1)) r2
        rcases linked_of S.proj hedge with hL | hL
        · obtain ⟨y, hy⟩ := S.partner_right htag hL
          have hty := hy
          obtain ⟨_, _, _, _, _, _, _, hty⟩ := hty
          have := S.inside hab hc' hty b1 b2 hA hB
          exact ⟨(w, m), (x, y), hL, hy, .inl rfl, h1, this.2⟩
        · obtain ⟨y, hy⟩ := S.partner_left htag hL
          have hty := hy
          obtain ⟨_, _, _, _, _, _, hty, _⟩ := hty
          have := S.inside hab hc' hty b1 b2 hA hB
          exact ⟨(m, w), (y, x), hL, hy, .inr rfl, this.1, h2⟩
    · -- in the right word
      rcases B2 with h | ⟨_, ⟨v, hv, hs⟩ | ⟨h3, h4⟩⟩
      · simp at h
      · simp only [Nat.sub_zero] at hv hs
        obtain ⟨p, s, _, rfl, q1, q2, q3, q4, _⟩ := S.node hb
        rw [hv] at q1
        cases q1
        obtain ⟨g1, g2, d, hd, rfl⟩ := before_left q2 q3 (by omega) hs
        have hL : Linked root d.ind s.ind := ⟨by omega, .inl (mem_edges.2 ⟨s, q4, d, hd, rfl, rfl⟩)⟩
        obtain ⟨y, hy⟩ := S.partner_left htag hL
        have hty := hy
        obtain ⟨_, _, _, _, _, _, hty, _⟩ := hty
        have := S.inside hab hc' hty (by simp only; omega) (by simp only; omega) (fun h => absurd h (by simp only; omega)) (fun h => absurd h (by simp only; omega))
        exact ⟨_, (y, x), hL, hy, .inr rfl, this.1, h2⟩
      · simp only at h3 h4
        subst h3
        obtain ⟨y, hy⟩ := S.partner_left htag hl
        have hty := hy
        obtain ⟨w', t', j', n1, n2, n3, n4, n5⟩ := hty
        simp only at n1 n2 n3 n4 n5
        rw [k1] at n1
        cases n1
        have := comp_unique (S.keys_nodup wa (List.mem_of_getElem? k1)) k2 n2
        subst this
        rw [htag] at n5
        simp only [Option.some.injEq, Prod.mk.injEq, true_and] at n5
        subst n5
        refine ⟨_, (y, x), hl, hy, .inr rfl, ?_, h2⟩
        apply lt_of_before S.keys_nodup k4 n4
        refine .inr ⟨rfl, .inr ⟨rfl, ?_⟩⟩
        simp only; omega
  · -- in the left word
    rcases B1 with h | ⟨_, ⟨v, hv, hs⟩ | ⟨h3, h4⟩⟩
    · simp at h
    · simp only [Nat.sub_zero] at hv hs
      obtain ⟨p, s, _, rfl, q1, q2, q3, q4, _⟩ := S.node ha
      rw [hv] at q1
      cases q1
      obtain ⟨g1, g2, d, hd, rfl⟩ := after_right q2 q3 (by omega) hs
      have hL : Linked root s.ind d.ind := ⟨by omega, .inr (mem_edges.2 ⟨s, q4, d, hd, rfl, rfl⟩)⟩
      obtain ⟨y, hy⟩ := S.partner_right htag hL
      have hty := hy
      obtain ⟨_, _, _, _, _, _, _, hty⟩ := hty
      have := S.inside hab hc' hty (by simp only; omega) (by simp only; omega) (fun h => absurd h (by simp only; omega)) (fun h => absurd h (by simp only; omega))
      exact ⟨_, (x, y), hL, hy, .inl rfl, h1, this.2⟩
    · simp only at h3 h4
      subst h3
      obtain ⟨y, hy⟩ := S.partner_right htag hl
      have hty := hy
      obtain ⟨w', t', j', n1, n2, n3, n4, n5⟩ := hty
      simp only at n1 n2 n3 n4 n5
      rw [k1] at n1
      cases n1
      have := comp_unique (S.keys_nodup wa (List.mem_of_getElem? k1)) k2 n2
      subst this
      rw [htag] at n4
      simp only [Option.some.injEq, Prod.mk.injEq, true_and] at n4
      refine ⟨_, (x, y), hl, hy, .inl rfl, h1, ?_⟩
      apply lt_of_before S.keys_nodup n5 k5
      refine .inr ⟨rfl, .inr ⟨rfl, ?_⟩⟩
      simp only; omega

/-- the wires of the root do not lie inside a cup -/
theorem root_free (S : Setup root W) {a b : Nat} (hl : Linked root a b) {c : Nat × Nat} (hc : CupOf W (a, b) c) {x k : Nat}
    (hx : (tags 0 W)[x]? = some (root.ind, -1, k)) : ¬ (c.1 < x ∧ x < c.2) := by
  rintro ⟨h1, h2⟩
  obtain ⟨e, d, hL, ⟨w, t, j, _, _, _, n4, n5⟩, h, _⟩ := S.nest hl hc h1 h2
  rcases h with rfl | rfl
  · rw [hx] at n4
    simp only [Option.some.injEq, Prod.mk.injEq] at n4; omega
  · rw [hx] at n5
    simp only [Option.some.injEq, Prod.mk.injEq] at n5; omega

end Setup
end PTree
end Lambeq
