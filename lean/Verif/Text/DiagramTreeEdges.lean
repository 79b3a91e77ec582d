import Verif.Text.DiagramTreeTrace
import Verif.Text.PregroupTreeSpec

/-!
# The edges of the tree are the cups of the diagram (C102)
-/

namespace Lambeq
namespace DTree
open Diagram GDiagram
set_option linter.unusedSimpArgs false
set_option linter.unusedVariables false

/-! ## Specification -/

/-- The two wires of a cup. -/
def ends (cups : List (Nat × Nat)) : List Nat := cups.flatMap (fun c => [c.1, c.2])

/-- A cup with a direction, from a word to a child of it: to the right, if the left wire is the one of the word. -/
structure Use where
  toRight : Bool
  cup : Nat × Nat

def Use.parent (u : Use) : Nat := if u.toRight then u.cup.1 else u.cup.2
def Use.child (u : Use) : Nat := if u.toRight then u.cup.2 else u.cup.1

/-- For every child in a tree and every simple type of its type: the word of the parent, the word of the child, the simple type. -/
def edges (t : PTree) : List (Key × Key × Ob) :=
  t.subs.flatMap (fun s => s.children.flatMap (fun c => c.typ.map (fun o => ((s.word, s.ind), (c.word, c.ind), o))))

/-- The words of a tree. -/
def keys (t : PTree) : List Key := t.subs.map (fun s => (s.word, s.ind))

/-! ## Proof -/

/-- What is known about cups. -/
structure Good (w : Wiring) (cups : List (Nat × Nat)) : Prop where
  nodup : (ends cups).Nodup
  free : ∀ i ∈ ends cups, i ∉ w.free
  lt : ∀ i ∈ ends cups, i < w.owners.length

theorem mem_ends {cups : List (Nat × Nat)} {i : Nat} : i ∈ ends cups ↔ ∃ c ∈ cups, c.1 = i ∨ c.2 = i := by
  simp only [ends, List.mem_flatMap, List.mem_cons, List.not_mem_nil, or_false]
  constructor
  · rintro ⟨c, h1, h2⟩; exact ⟨c, h1, h2.imp Eq.symm Eq.symm⟩
  · rintro ⟨c, h1, h2⟩; exact ⟨c, h1, h2.imp Eq.symm Eq.symm⟩

theorem ends_perm {a b : List (Nat × Nat)} (h : a.Perm b) : (ends a).Perm (ends b) := h.flatMap_right _

theorem Good.perm {w : Wiring} {a b : List (Nat × Nat)} (h : Good w a) (hp : a.Perm b) : Good w b :=
  ⟨(ends_perm hp).nodup_iff.1 h.nodup, fun i hi => h.free i ((ends_perm hp).mem_iff.2 hi), fun i hi => h.lt i ((ends_perm hp).mem_iff.2 hi)⟩

theorem Good.right {w : Wiring} {a b : List (Nat × Nat)} (h : Good w (a ++ b)) : Good w b := by
  have e : ends (a ++ b) = ends a ++ ends b := by simp [ends]
  refine ⟨?_, ?_, ?_⟩
  · have := h.nodup; rw [e, List.nodup_append] at this; exact this.2.1
  · intro i hi; exact h.free i (by rw [e]; simp [hi])
  · intro i hi; exact h.lt i (by rw [e]; simp [hi])

def Kids.use (w : Wiring) (ks : Kids) (u : Use) : Kids := ks.attach u.toRight (w.owner u.child) (w.type u.child)

/-- The visit of some wires: which cups it uses, and in which order. -/
theorem visit_uses (w : Wiring) (is : List Nat) (K : Kids) (R : List (Nat × Nat)) (hg : Good w R) :
    ∃ us : List Use, (is.foldl w.visitWire (K, R)).1 = us.foldl (Kids.use w) K ∧ (us.map Use.parent).Sublist is ∧
      R.Perm (us.map Use.cup ++ (is.foldl w.visitWire (K, R)).2) ∧ (is.foldl w.visitWire (K, R)).2.Sublist R ∧
      ∀ i ∈ is, i ∉ ends (is.foldl w.visitWire (K, R)).2 := by
  induction is generalizing K R with
  | nil => exact ⟨[], rfl, List.Sublist.refl _, by simp, List.Sublist.refl _, by simp⟩
  | cons i is ih =>
    simp only [List.foldl_cons]
    have skip : i ∉ ends R → w.visitWire (K, R) i = (K, R) → ∃ us : List Use, (is.foldl w.visitWire (w.visitWire (K, R) i)).1 = us.foldl (Kids.use w) K ∧ (us.map Use.parent).Sublist (i :: is) ∧
      R.Perm (us.map Use.cup ++ (is.foldl w.visitWire (w.visitWire (K, R) i)).2) ∧ (is.foldl w.visitWire (w.visitWire (K, R) i)).2.Sublist R ∧
      ∀ j ∈ i :: is, j ∉ ends (is.foldl w.visitWire (w.visitWire (K, R) i)).2 := by
      intro hi he
      rw [he]
      obtain ⟨us, h1, h2, h3, h4, h5⟩ := ih K R hg
      refine ⟨us, h1, h2.cons _, h3, h4, ?_⟩
      intro j hj
      rcases List.mem_cons.1 hj with rfl | hj
      · intro hc
        obtain ⟨c, hc1, hc2⟩ := mem_ends.1 hc
        exact hi (mem_ends.2 ⟨c, h4.subset hc1, hc2⟩)
      · exact h5 j hj
    by_cases hf : i ∈ w.free
    · exact skip (fun h => hg.free i h hf) (by simp [Wiring.visitWire, hf])
    · cases hfind : R.find? (fun c => decide (c.1 = i ∨ c.2 = i)) with
      | none =>
        refine skip ?_ (by simp only [Wiring.visitWire, if_neg hf, hfind])
        intro h
        obtain ⟨c, hc1, hc2⟩ := mem_ends.1 h
        have := List.find?_eq_none.1 hfind c hc1
        simp [hc2] at this
      | some c =>
        have hcR : c ∈ R := List.mem_of_find?_eq_some hfind
        have hci : c.1 = i ∨ c.2 = i := by simpa using List.find?_some hfind
        have hperm := List.perm_cons_erase hcR
        have hg' : Good w (R.erase c) := (hg.perm hperm : Good w ([c] ++ R.erase c)).right
        have hstep : ∃ u : Use, u.cup = c ∧ u.parent = i ∧ w.visitWire (K, R) i = (K.use w u, R.erase c) := by
          by_cases h2 : c.2 = i
          · exact ⟨⟨false, c⟩, rfl, by simp [Use.parent, h2], by simp only [Wiring.visitWire, if_neg hf, hfind, if_pos h2, Kids.use, Use.child]; simp⟩
          · exact ⟨⟨true, c⟩, rfl, by simpa [Use.parent] using hci.resolve_right h2, by simp only [Wiring.visitWire, if_neg hf, hfind, if_neg h2, Kids.use, Use.child]; simp⟩
        obtain ⟨u, hu1, hu2, hu3⟩ := hstep
        rw [hu3]
        obtain ⟨us, h1, h2, h3, h4, h5⟩ := ih (K.use w u) (R.erase c) hg'
        refine ⟨u :: us, h1, ?_, ?_, h4.trans List.erase_sublist, ?_⟩
        · rw [List.map_cons, hu2]; exact h2.cons_cons _
        · rw [List.map_cons, hu1]; exact hperm.trans (h3.cons c)
        · intro j hj
          rcases List.mem_cons.1 hj with rfl | hj
          · intro hc
            obtain ⟨c', hc1, hc2⟩ := mem_ends.1 hc
            have hnd := (ends_perm hperm).nodup_iff.1 hg.nodup
            have e : ends (c :: R.erase c) = [c.1, c.2] ++ ends (R.erase c) := by simp [ends]
            rw [e, List.nodup_append] at hnd
            exact hnd.2.2 j (by rcases hci with h | h <;> simp [h]) j (mem_ends.2 ⟨c', h4.subset hc1, hc2⟩) rfl
          · exact h5 j hj

/-- All simple types in a list of children. -/
def content (l : List (Key × Ty)) : List (Key × Ob) := l.flatMap (fun e => e.2.map (fun o => (e.1, o)))

theorem addTy_keys (k : Key) (t : Ob) (l : List (Key × Ty)) : (addTy k t l).map Prod.fst = l.map Prod.fst := by
  induction l with
  | nil => rfl
  | cons e l ih =>
    simp only [addTy]
    split
    · rename_i h; simp [h]
    · simp [ih]

theorem addTy_content (k : Key) (t : Ob) (l : List (Key × Ty)) (h : k ∈ l.map Prod.fst) : (content (addTy k t l)).Perm ((k, t) :: content l) := by
  induction l with
  | nil => simp at h
  | cons e l ih =>
    simp only [addTy]
    split
    · rename_i he
      subst he
      simp [content]
    · rename_i he
      have hk : k ∈ l.map Prod.fst := by
        simp only [List.map_cons, List.mem_cons] at h
        exact h.resolve_left (fun h => he h.symm)
      have := ih hk
      simp only [content, List.flatMap_cons] at this ⊢
      exact (this.append_left _).trans List.perm_middle

/-- The newest node of every child is in the list of its side. -/
structure Kids.OK (ks : Kids) : Prop where
  known : ∀ k, (k ∈ ks.left.map Prod.fst ∨ k ∈ ks.right.map Prod.fst) → (ks.newest.lookup k).isSome
  side : ∀ k b, ks.newest.lookup k = some b → k ∈ (if b then ks.right else ks.left).map Prod.fst

theorem attach_ok {ks : Kids} (h : ks.OK) (b : Bool) (k : Key) (t : Ob) : (ks.attach b k t).OK ∧ (content (ks.attach b k t).left ++ content (ks.attach b k t).right).Perm ((k, t) :: (content ks.left ++ content ks.right)) := by
  unfold Kids.attach
  by_cases hk : k ∈ (if b then ks.right else ks.left).map Prod.fst
  · rw [if_pos hk]
    obtain ⟨b', hb'⟩ := Option.isSome_iff_exists.1 (h.known k (by cases b <;> simp at hk ⊢ <;> tauto))
    have hs := h.side k b' hb'
    rw [hb']
    cases b'
    · simp only [Option.getD_some, Bool.false_eq_true, if_false] at hs ⊢
      refine ⟨⟨?_, ?_⟩, ?_⟩
      · simp only [addTy_keys]; exact h.known
      · intro k' b'' hk'
        have := h.side k' b'' hk'
        cases b'' <;> simpa [addTy_keys] using this
      · exact ((addTy_content k t _ hs).append_right _)
    · simp only [Option.getD_some, if_true] at hs ⊢
      refine ⟨⟨?_, ?_⟩, ?_⟩
      · simp only [addTy_keys]; exact h.known
      · intro k' b'' hk'
        have := h.side k' b'' hk'
        cases b'' <;> simpa [addTy_keys] using this
      · exact ((addTy_content k t _ hs).append_left _).trans List.perm_middle
  · rw [if_neg hk]
    have lk : ∀ (b : Bool) (k' : Key), ((k, b) :: ks.newest).lookup k' = if k' = k then some b else ks.newest.lookup k' := by
      intro b k'
      by_cases e : k' = k
      · subst e; simp [List.lookup]
      · rw [if_neg e]; simp [List.lookup, beq_eq_false_iff_ne.2 e]
    cases b
    · simp only [Bool.false_eq_true, if_false]
      refine ⟨⟨?_, ?_⟩, ?_⟩
      · intro k' hk'
        simp only [lk]
        split
        · rfl
        · rename_i e
          refine h.known k' ?_
          simpa [e] using hk'
      · intro k' b' hk'
        simp only [lk] at hk'
        split at hk'
        · rename_i e; cases hk'; simp [e]
        · have := h.side k' b' hk'
          cases b' <;> simp_all
      · simp [content]
    · simp only [if_true]
      refine ⟨⟨?_, ?_⟩, ?_⟩
      · intro k' hk'
        simp only [lk]
        split
        · rfl
        · rename_i e
          refine h.known k' ?_
          simpa [e] using hk'
      · intro k' b' hk'
        simp only [lk] at hk'
        split at hk'
        · rename_i e; cases hk'; simp [e]
        · have := h.side k' b' hk'
          cases b' <;> simp_all
      · simp only [content, List.flatMap_cons, List.map_cons, List.map_nil, List.cons_append, List.nil_append]
        exact List.perm_middle

theorem uses_ok (w : Wiring) (us : List Use) (K : Kids) (h : K.OK) : (us.foldl (Kids.use w) K).OK ∧
    (content (us.foldl (Kids.use w) K).left ++ content (us.foldl (Kids.use w) K).right).Perm (us.map (fun u => (w.owner u.child, w.type u.child)) ++ (content K.left ++ content K.right)) := by
  induction us generalizing K with
  | nil => exact ⟨h, by simp⟩
  | cons u us ih =>
    obtain ⟨h1, h2⟩ := attach_ok h u.toRight (w.owner u.child) (w.type u.child)
    obtain ⟨h3, h4⟩ := ih _ h1
    refine ⟨h3, h4.trans ?_⟩
    simp only [List.map_cons, List.cons_append]
    exact (h2.append_left _).trans List.perm_middle

theorem mem_indices {owners : List Key} {k : Key} {i : Nat} : i ∈ indices owners k ↔ owners[i]? = some k := by
  simp only [indices, List.mem_filter, List.mem_range, decide_eq_true_eq]
  constructor
  · exact fun h => h.2
  · intro h; exact ⟨(List.getElem?_eq_some_iff.1 h).1, h⟩

theorem owner_eq {w : Wiring} {i : Nat} {k : Key} (h : w.owners[i]? = some k) : w.owner i = k := by
  simp [Wiring.owner, List.getD_eq_getElem?_getD, h]

/-- The cups of a word that are visited become its children. -/
theorem visit_edges (w : Wiring) (k : Key) (R : List (Nat × Nat)) (hg : Good w R) : ∃ us : List Use, R.Perm (us.map Use.cup ++ (w.visit k R).2) ∧ (w.visit k R).2.Sublist R ∧
    (∀ u ∈ us, w.owner u.parent = k) ∧ (content (w.visit k R).1).Perm (us.map (fun u => (w.owner u.child, w.type u.child))) ∧ (∀ i ∈ ends (w.visit k R).2, w.owner i ≠ k) ∧
    ((w.visit k R).1 ≠ [] → us ≠ []) := by
  obtain ⟨us, h1, h2, h3, h4, h5⟩ := visit_uses w (indices w.owners k) ⟨[], [], []⟩ R hg
  obtain ⟨h6, h7⟩ := uses_ok w us ⟨[], [], []⟩ ⟨by simp, by simp⟩
  refine ⟨us, h3, h4, ?_, ?_, ?_, ?_⟩
  · intro u hu
    exact owner_eq (mem_indices.1 (h2.subset (List.mem_map_of_mem hu)))
  · simp only [Wiring.visit]
    rw [h1]
    simp only [content, List.flatMap_append, List.flatMap_nil, List.append_nil] at h7 ⊢
    exact h7
  · intro i hi hk
    have hlt : i < w.owners.length := by
      obtain ⟨c, hc1, hc2⟩ := mem_ends.1 hi
      exact hg.lt i (mem_ends.2 ⟨c, h4.subset hc1, hc2⟩)
    refine h5 i (mem_indices.2 ?_) hi
    rw [List.getElem?_eq_getElem hlt]
    rw [← hk]
    simp [Wiring.owner, List.getD_eq_getElem?_getD, List.getElem?_eq_getElem hlt]
  · intro hne h0
    subst h0
    apply hne
    simp only [Wiring.visit, h1, List.foldl_nil, List.append_nil]

theorem edges_node (s : String) (i : Nat) (t : Ty) (cs : List PTree) :
    edges (.node s i t cs) = cs.flatMap (fun c => c.typ.map (fun o => ((s, i), (c.word, c.ind), o))) ++ cs.flatMap edges := by
  simp only [edges, PTree.subs_node, List.flatMap_cons, List.flatMap_assoc]
  rfl

theorem keys_node (s : String) (i : Nat) (t : Ty) (cs : List PTree) : keys (.node s i t cs) = (s, i) :: cs.flatMap keys := by
  simp only [keys, PTree.subs_node, List.map_cons, PTree.word, PTree.ind, List.map_flatMap]
  rfl

/-- What a tree that is grown from the cups `R` leaves. -/
def Grown (w : Wiring) (k : Key × Ty) (R : List (Nat × Nat)) (r : PTree × List (Nat × Nat)) : Prop :=
  r.1.word = k.1.1 ∧ r.1.ind = k.1.2 ∧ r.1.typ = k.2 ∧ r.2.Sublist R ∧ (∃ us : List Use, R.Perm (us.map Use.cup ++ r.2) ∧ (edges r.1).Perm (us.map (fun u => (w.owner u.parent, w.owner u.child, w.type u.child)))) ∧
    ∀ i ∈ ends r.2, w.owner i ∉ keys r.1

theorem thread_grown (w : Wiring) (f : Key × Ty → List (Nat × Nat) → PTree × List (Nat × Nat)) (ks : List (Key × Ty)) (R : List (Nat × Nat)) (hg : Good w R)
    (hf : ∀ k ∈ ks, ∀ R', R'.Sublist R → Good w R' → Grown w k R' (f k R')) :
    List.Forall₂ (fun k (t : PTree) => t.word = k.1.1 ∧ t.ind = k.1.2 ∧ t.typ = k.2) ks (thread f ks R).1 ∧ (thread f ks R).2.Sublist R ∧
    (∃ us : List Use, R.Perm (us.map Use.cup ++ (thread f ks R).2) ∧ ((thread f ks R).1.flatMap edges).Perm (us.map (fun u => (w.owner u.parent, w.owner u.child, w.type u.child)))) ∧
    ∀ i ∈ ends (thread f ks R).2, ∀ t ∈ (thread f ks R).1, w.owner i ∉ keys t := by
  induction ks generalizing R with
  | nil => exact ⟨.nil, List.Sublist.refl _, ⟨[], by simp [thread], by simp [thread]⟩, by simp [thread]⟩
  | cons k ks ih =>
    obtain ⟨g1, g2, g3, g4, ⟨us, g5, g6⟩, g7⟩ := hf k (by simp) R (List.Sublist.refl _) hg
    have hg' : Good w (f k R).2 := (hg.perm g5).right
    obtain ⟨i1, i2, ⟨vs, i3, i4⟩, i5⟩ := ih (f k R).2 hg' (fun k' hk' R' hs hR' => hf k' (by simp [hk']) R' (hs.trans g4) hR')
    simp only [thread]
    refine ⟨.cons ⟨g1, g2, g3⟩ i1, i2.trans g4, ⟨us ++ vs, ?_, ?_⟩, ?_⟩
    · rw [List.map_append, List.append_assoc]
      exact g5.trans (i3.append_left _)
    · rw [List.flatMap_cons, List.map_append]
      exact g6.append i4
    · intro i hi t ht
      rcases List.mem_cons.1 ht with rfl | ht
      · obtain ⟨c, hc1, hc2⟩ := mem_ends.1 hi
        exact g7 i (mem_ends.2 ⟨c, i2.subset hc1, hc2⟩)
      · exact i5 i hi t ht

theorem content_edges {s : String} {i : Nat} {ks : List (Key × Ty)} {ts : List PTree} (h : List.Forall₂ (fun k (t : PTree) => t.word = k.1.1 ∧ t.ind = k.1.2 ∧ t.typ = k.2) ks ts) :
    ts.flatMap (fun c => c.typ.map (fun o => (((s, i) : Key), ((c.word, c.ind) : Key), o))) = (content ks).map (fun x => ((s, i), x.1, x.2)) := by
  induction h with
  | nil => rfl
  | cons h1 _ ih =>
    simp only [List.flatMap_cons, ih, content, List.map_append, List.map_map, h1.1, h1.2.1, h1.2.2]
    rfl

theorem grow_grown (w : Wiring) (n : Nat) (k : Key × Ty) (R : List (Nat × Nat)) (hg : Good w R) (hn : R.length < n) : Grown w k R (w.grow n k R) := by
  induction n generalizing k R with
  | zero => omega
  | succ n ih =>
    obtain ⟨us, h1, h2, h3, h4, h5, h6⟩ := visit_edges w k.1 R hg
    have hg' := (hg.perm h1).right
    have hlen : (w.visit k.1 R).1 ≠ [] → (w.visit k.1 R).2.length < n := by
      intro hne
      have := h1.length_eq
      have h0 := List.length_pos_iff.2 (h6 hne)
      simp only [List.length_append, List.length_map] at this
      omega
    obtain ⟨t1, t2, ⟨vs, t3, t4⟩, t5⟩ := thread_grown w (w.grow n) (w.visit k.1 R).1 (w.visit k.1 R).2 hg' (by
      intro k' hk' R' hs hR'
      refine ih k' R' hR' ?_
      have := hlen (List.ne_nil_of_mem hk')
      have := hs.length_le
      omega)
    simp only [Wiring.grow]
    refine ⟨rfl, rfl, rfl, t2.trans h2, ⟨us ++ vs, ?_, ?_⟩, ?_⟩
    · rw [List.map_append, List.append_assoc]
      exact h1.trans (t3.append_left _)
    · simp only
      rw [edges_node, List.map_append]
      refine List.Perm.append ?_ t4
      rw [content_edges t1]
      refine (h4.map _).trans ?_
      rw [List.map_map]
      refine List.Perm.of_eq (List.map_congr_left ?_)
      intro u hu
      simp [h3 u hu]
    · intro i hi
      simp only
      rw [keys_node]
      simp only [List.mem_cons, List.mem_flatMap, not_or, not_exists, not_and]
      refine ⟨?_, fun t ht => t5 i hi t ht⟩
      obtain ⟨c, hc1, hc2⟩ := mem_ends.1 hi
      exact h5 i (mem_ends.2 ⟨c, t2.subset hc1, hc2⟩)

/-- A larger bound on the depth changes nothing, so that `grow` does what the loop of the code does. -/
theorem grow_enough (w : Wiring) (n : Nat) (k : Key × Ty) (R : List (Nat × Nat)) (hg : Good w R) (hn : R.length < n) : w.grow (n + 1) k R = w.grow n k R := by
  induction n generalizing k R with
  | zero => omega
  | succ n ih =>
    obtain ⟨us, h1, h2, h3, h4, h5, h6⟩ := visit_edges w k.1 R hg
    have hg' := (hg.perm h1).right
    have hlen : (w.visit k.1 R).1 ≠ [] → (w.visit k.1 R).2.length < n := by
      intro hne
      have := h1.length_eq
      have h0 := List.length_pos_iff.2 (h6 hne)
      simp only [List.length_append, List.length_map] at this
      omega
    have key : ∀ (ks : List (Key × Ty)) (R' : List (Nat × Nat)), Good w R' → (ks ≠ [] → R'.length < n) → thread (w.grow (n + 1)) ks R' = thread (w.grow n) ks R' := by
      intro ks
      induction ks with
      | nil => intro _ _ _; rfl
      | cons k ks ihk =>
        intro R' hR hl
        have hl := hl (by simp)
        obtain ⟨_, _, _, g4, ⟨us, g5, g6⟩, g7⟩ := grow_grown w n k R' hR hl
        simp only [thread]
        rw [ih k R' hR hl, ihk _ ((hR.perm g5).right) (fun _ => by have := g4.length_le; omega)]
    conv_lhs => rw [Wiring.grow]
    conv_rhs => rw [Wiring.grow]
    rw [key _ _ hg' hlen]

end DTree
end Lambeq
