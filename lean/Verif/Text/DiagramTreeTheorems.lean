import Verif.Text.DiagramTreeEdges

/-!
# `diagram2tree` on all pregroup diagrams (C102)
-/

namespace Lambeq
namespace DTree
open Diagram GDiagram
set_option linter.unusedSimpArgs false
set_option linter.unusedVariables false

theorem down_cup {l : GLayer} {p : Nat} (h : isCup l.box = true) (hp : p = l.left.length ∨ p = l.left.length + 1) : down l p = none := by
  obtain ⟨L, bx, R⟩ := l
  cases bx <;> simp [isCup] at h
  simp only at hp
  simp only [down]
  rw [if_neg (by omega), if_pos (by omega)]

/-- A wire that ends in a cup is nowhere below it. -/
theorem follow_after {ls : List GLayer} {k m : Nat} {l : GLayer} {i : Nat} (hl : ls[k]? = some l) (hc : isCup l.box = true) (hi : follow (ls.take k) i = some l.left.length ∨ follow (ls.take k) i = some (l.left.length + 1))
    (hm : k < m) : follow (ls.take m) i = none := by
  have hk := (List.getElem?_eq_some_iff.1 hl).1
  have e : ls.take (k + 1) = ls.take k ++ [l] := by
    rw [List.take_add_one, hl]; rfl
  have e2 : ∃ r, ls.take m = ls.take (k + 1) ++ r := by
    refine ⟨(ls.drop (k + 1)).take (m - (k + 1)), ?_⟩
    rw [show m = k + 1 + (m - (k + 1)) by omega, List.take_add]
    congr 2
    omega
  obtain ⟨r, e2⟩ := e2
  rw [e2, e, follow_append, follow_snoc]
  rcases hi with h | h <;> rw [h] <;> simp [down_cup hc]

theorem owners_length (wl : List GLayer) (li : Nat) : (((wl.zipIdx li).map (fun x => List.replicate x.1.box.cod.length (name x.1.box, x.2))).flatten).length = ((wl.map (fun l => l.box.cod)).flatten).length := by
  induction wl generalizing li with
  | nil => rfl
  | cons l wl ih =>
    simp only [List.zipIdx_cons, List.map_cons, List.flatten_cons, List.length_append, List.length_replicate, ih]

/-- What C102_trace says about cups and swaps. -/
structure Traced (d : GDiagram) (wl ls : List GLayer) (s : Trace) : Prop where
  split : d.layers = wl ++ ls
  words : ∀ l ∈ wl, isWord l.box = true
  boxes : ∀ l ∈ ls, isCup l.box = true ∨ isSwap l.box = true
  trace : trace 0 d.layers ⟨[], [], [], [], []⟩ = .ok s
  types : s.types = (wl.map (fun l => l.box.cod)).flatten
  owners : s.owners = (wl.zipIdx.map (fun x => List.replicate x.1.box.cod.length (name x.1.box, x.2))).flatten
  texts : s.words = wl.zipIdx.map (fun x => (name x.1.box, x.1.box.cod, x.2))
  count : s.joins.length = ls.length
  join : ∀ k l, ls[k]? = some l → ∃ a b, s.joins[k]? = some (isCup l.box, a, b) ∧ a < s.types.length ∧ b < s.types.length ∧ follow (ls.take k) a = some l.left.length ∧
      follow (ls.take k) b = some (l.left.length + 1) ∧ l.box.dom.map some = [s.types[a]?, s.types[b]?]
  live : ls ≠ [] → d.cod.map some = s.live.map (fun i => s.types[i]?) ∧ ∀ p i, s.live[p]? = some i ↔ i < s.types.length ∧ follow ls i = some p

theorem traced (d : GDiagram) (hw : d.WT) (hp : isPregroup d = true) : ∃ wl ls s, Traced d wl ls s := by
  obtain ⟨wl, ls, s, h1, h2, h3, h4, h5, h6, h7, h8, h9, h10⟩ := C102_trace d hw hp
  exact ⟨wl, ls, s, h1, h2, h3, h4, h5, h6, h7, h8, h9, h10⟩

theorem Traced.good {d : GDiagram} {wl ls : List GLayer} {s : Trace} (h : Traced d wl ls s) : Good s.wiring s.cups := by
  have hol : s.owners.length = s.types.length := by rw [h.owners, h.types]; exact owners_length wl 0
  have hk : ∀ k x, s.joins[k]? = some x → ∃ l, ls[k]? = some l ∧ x.1 = isCup l.box ∧ x.2.1 < s.types.length ∧ x.2.2 < s.types.length ∧ follow (ls.take k) x.2.1 = some l.left.length ∧
      follow (ls.take k) x.2.2 = some (l.left.length + 1) := by
    intro k x hx
    have hlt : k < ls.length := by rw [← h.count]; exact (List.getElem?_eq_some_iff.1 hx).1
    obtain ⟨a, b, e, h1, h2, h3, h4, _⟩ := h.join k _ (List.getElem?_eq_getElem hlt)
    rw [hx] at e
    cases e
    exact ⟨_, List.getElem?_eq_getElem hlt, rfl, h1, h2, h3, h4⟩
  have hmem : ∀ c ∈ s.cups, ∃ k : Nat, s.joins[k]? = some (true, c) := by
    intro c hc
    simp only [Trace.cups, List.mem_map, List.mem_filter] at hc
    obtain ⟨x, ⟨hx1, hx2⟩, rfl⟩ := hc
    obtain ⟨k, hk⟩ := List.getElem?_of_mem hx1
    refine ⟨k, by rw [hk, ← hx2]⟩
  refine ⟨?_, ?_, ?_⟩
  · rw [ends, List.nodup_flatMap]
    constructor
    · intro c hc
      obtain ⟨k, hkc⟩ := hmem c hc
      obtain ⟨l, _, _, _, _, f1, f2⟩ := hk k _ hkc
      simp only [List.nodup_cons, List.mem_singleton, List.not_mem_nil, not_false_eq_true, List.nodup_nil, and_true]
      intro e
      simp only at f1 f2
      rw [e, f2] at f1
      simp at f1
    · simp only [Trace.cups, List.pairwise_map]
      refine List.Pairwise.imp_of_mem ?_ ((List.pairwise_iff_getElem (R := fun (x y : Bool × Nat × Nat) => x.1 = true → y.1 = true → List.Disjoint [x.2.1, x.2.2] [y.2.1, y.2.2])).2 ?_ |>.filter _)
      · intro x y hx hy hxy
        exact hxy (by simpa using (List.mem_filter.1 hx).2) (by simpa using (List.mem_filter.1 hy).2)
      · intro i j hi hj hij h1 h2
        obtain ⟨l, e1, e2, _, _, f1, f2⟩ := hk i _ (List.getElem?_eq_getElem hi)
        obtain ⟨m, m1, m2, _, _, g1, g2⟩ := hk j _ (List.getElem?_eq_getElem hj)
        rw [h1] at e2
        intro x hx1 hx2
        have hx1 : x = s.joins[i].2.1 ∨ x = s.joins[i].2.2 := by simpa using hx1
        have hx2 : x = s.joins[j].2.1 ∨ x = s.joins[j].2.2 := by simpa using hx2
        have hn : follow (ls.take j) x = none := follow_after e1 e2.symm (by rcases hx1 with rfl | rfl <;> simp [f1, f2]) hij
        rcases hx2 with rfl | rfl
        · rw [g1] at hn; cases hn
        · rw [g2] at hn; cases hn
  · intro i hi hf
    obtain ⟨c, hc, hci⟩ := mem_ends.1 hi
    obtain ⟨k, hkc⟩ := hmem c hc
    obtain ⟨l, e1, e2, _, _, f1, f2⟩ := hk k _ hkc
    have hlt := (List.getElem?_eq_some_iff.1 e1).1
    have hne : ls ≠ [] := by rintro rfl; simp at hlt
    obtain ⟨p, hp⟩ := List.getElem?_of_mem (show i ∈ s.live from hf)
    have h1 := ((h.live hne).2 p i).1 hp
    have hn : follow (ls.take ls.length) i = none := follow_after e1 e2.symm (by rcases hci with rfl | rfl <;> simp [f1, f2]) hlt
    rw [List.take_length, h1.2] at hn
    cases hn
  · intro i hi
    obtain ⟨c, hc, hci⟩ := mem_ends.1 hi
    obtain ⟨k, hkc⟩ := hmem c hc
    obtain ⟨l, _, _, h1, h2, _, _⟩ := hk k _ hkc
    show i < s.owners.length
    rw [hol]
    rcases hci with rfl | rfl
    · exact h1
    · exact h2

/-- **C102 (edges).** Let `d` be a well-typed pregroup diagram with a cup or a swap, and let `diagram2tree` return a tree for it. The cups of `d` fall into two parts. Those of the first part have a direction, and
they are the edges of the tree: each gives one simple type of one child, namely the type of its wire at the word of the child, and the parent of that child is the word of its other wire; the tree has nothing else.
Those of the second part have no wire at any word of the tree. The root is the word with the outputs, and its type is the codomain of `d`. -/
theorem C102_edges (d : GDiagram) (hw : d.WT) (hp : isPregroup d = true) (hl : ∃ l ∈ d.layers, isWord l.box = false) (t : PTree) (h : diagram2tree d = .ok t) :
    ∃ (wl ls : List GLayer) (s : Trace) (us : List Use) (rest : List (Nat × Nat)), Traced d wl ls s ∧ s.cups.Perm (us.map Use.cup ++ rest) ∧
      (edges t).Perm (us.map (fun u => (s.wiring.owner u.parent, s.wiring.owner u.child, s.wiring.type u.child))) ∧ (∀ i ∈ ends rest, s.wiring.owner i ∉ keys t) ∧
      (∀ i ∈ s.live, s.wiring.owner i = (t.word, t.ind)) ∧ t.typ = d.cod := by
  obtain ⟨wl, ls, s, ht⟩ := traced d hw hp
  have hne : ls ≠ [] := by
    rintro rfl
    obtain ⟨l, hl1, hl2⟩ := hl
    rw [ht.split, List.append_nil] at hl1
    rw [ht.words l hl1] at hl2
    cases hl2
  have hj : s.joins ≠ [] := by
    intro e
    have := ht.count
    rw [e] at this
    exact hne (List.length_eq_zero_iff.1 this.symm)
  unfold diagram2tree at h
  simp only [ht.trace, if_neg hj] at h
  unfold Wiring.build at h
  split at h
  · cases h
  · rename_i r hr
    split at hr
    · cases hr
    · rename_i hfree
      cases hr
      cases h
      obtain ⟨g1, g2, g3, _, ⟨us, g4, g5⟩, g6⟩ := grow_grown s.wiring (s.cups.length + 1) s.wiring.root s.cups ht.good (by omega)
      have hall : ∀ i ∈ s.live, s.wiring.owner i = s.wiring.root.1 := by
        simp only [List.any_eq_true, decide_eq_true_eq, not_exists, not_and, not_not] at hfree
        exact hfree
      refine ⟨wl, ls, s, us, _, ht, g4, g5, g6, ?_, ?_⟩
      · intro i hi
        rw [g1, g2]; exact hall i hi
      · rw [g3]
        have hc := (ht.live hne).1
        have hf : s.live.filter (fun i => decide (s.wiring.owner i = s.wiring.owner (s.live.headD 0))) = s.live := List.filter_eq_self.2 (by
          intro i hi; exact decide_eq_true (hall i hi))
        show (s.live.filter (fun i => decide (s.wiring.owner i = s.wiring.owner (s.live.headD 0)))).map s.wiring.type = d.cod
        rw [hf]
        have hd : (d.cod.map some).map (fun o => o.getD ⟨"", 0⟩) = d.cod := by simp
        rw [← hd, hc, List.map_map]
        rfl

/-- **C102 (results and errors).** For a well-typed pregroup diagram with a cup or a swap the result is a tree or `ValueError`; it is `ValueError` exactly when two outputs come from different words.
A diagram of words alone gives the tree of one node for one word, and otherwise `AssertionError`. -/
theorem C102_errors (d : GDiagram) (hw : d.WT) (hp : isPregroup d = true) :
    ((∃ l ∈ d.layers, isWord l.box = false) → ∃ wl ls s, Traced d wl ls s ∧ (diagram2tree d = .error .valueError ↔ ∃ i ∈ s.live, ∃ j ∈ s.live, s.wiring.owner i ≠ s.wiring.owner j) ∧
      ((∀ i ∈ s.live, ∀ j ∈ s.live, s.wiring.owner i = s.wiring.owner j) → ∃ t, diagram2tree d = .ok t)) ∧
    ((∀ l ∈ d.layers, isWord l.box = true) → diagram2tree d = match d.boxes with | [b] => .ok (.node (name b) 0 b.cod []) | _ => .error .assertionError) := by
  obtain ⟨wl, ls, s, ht⟩ := traced d hw hp
  constructor
  · intro hl
    have hne : ls ≠ [] := by
      rintro rfl
      obtain ⟨l, hl1, hl2⟩ := hl
      rw [ht.split, List.append_nil] at hl1
      rw [ht.words l hl1] at hl2
      cases hl2
    have hj : s.joins ≠ [] := by
      intro e
      have := ht.count
      rw [e] at this
      exact hne (List.length_eq_zero_iff.1 this.symm)
    refine ⟨wl, ls, s, ht, ?_⟩
    have hroot : ∀ i ∈ s.live, s.live.headD 0 ∈ s.live := by
      intro i hi
      cases hs : s.live with
      | nil => rw [hs] at hi; simp at hi
      | cons a l => simp
    unfold diagram2tree
    simp only [ht.trace, if_neg hj, Wiring.build]
    by_cases hany : (s.wiring.free.any (fun i => decide (s.wiring.owner i ≠ s.wiring.root.1))) = true
    · rw [if_pos hany]
      simp only [List.any_eq_true, decide_eq_true_eq] at hany
      obtain ⟨i, hi, hn⟩ := hany
      refine ⟨⟨fun _ => ⟨i, hi, s.live.headD 0, hroot i hi, hn⟩, fun _ => rfl⟩, fun hall => absurd (hall i hi _ (hroot i hi)) hn⟩
    · rw [if_neg hany]
      simp only [List.any_eq_true, decide_eq_true_eq, not_exists, not_and, not_not] at hany
      refine ⟨⟨fun h => (by cases h), ?_⟩, fun _ => ⟨_, rfl⟩⟩
      rintro ⟨i, hi, j, hj', hn⟩
      exact absurd ((hany i hi).trans (hany j hj').symm) hn
  · intro hall
    have hls : ls = [] := by
      by_contra hne
      obtain ⟨l, ls', rfl⟩ := List.exists_cons_of_ne_nil hne
      have h1 := hall l (by rw [ht.split]; simp)
      have h2 := ht.boxes l (by simp)
      obtain ⟨L, bx, R⟩ := l
      cases bx <;> simp [isWord, isCup, isSwap] at h1 h2
    subst hls
    have hj : s.joins = [] := List.length_eq_zero_iff.1 ht.count
    have hd : d.layers = wl := by rw [ht.split, List.append_nil]
    unfold diagram2tree
    rw [ht.trace]
    simp only [if_pos hj, ht.texts, Diagram.boxes, hd]
    rcases wl with _ | ⟨l, _ | ⟨l2, wl⟩⟩
    · rfl
    · rfl
    · rfl

end DTree
end Lambeq
