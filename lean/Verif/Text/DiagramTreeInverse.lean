import Verif.Text.DiagramTreeTheorems
import Verif.Text.TreeNodesSpec
import Mathlib.Data.List.Perm.Basic
import Mathlib.Data.List.Perm.Subperm
import Mathlib.Data.List.Induction
import Mathlib.Data.List.Forall2

/-!
# The tree of a diagram whose cups follow a tree (C102)
-/

namespace Lambeq
namespace DTree
open Diagram GDiagram
set_option linter.unusedSimpArgs false
set_option linter.unusedVariables false

/-! ## Specification -/

/-- The word of a node. -/
def key (t : PTree) : Key := (t.word, t.ind)

/-- The wire at the other end of the cup of a wire. -/
def mate (cups : List (Nat × Nat)) (i : Nat) : Option Nat := (cups.find? (fun c => decide (c.1 = i ∨ c.2 = i))).map (fun c => if c.2 = i then c.1 else c.2)

/-- The wires of the word `c` that are joined with wires of the word `s`, in the order of the wires of `s`. -/
def mates (w : Wiring) (cups : List (Nat × Nat)) (s c : Key) : List Nat := ((indices w.owners s).filterMap (mate cups)).filter (fun j => decide (w.owner j = c))

/-- The cup joins the words `s` and `c`. -/
def Between (w : Wiring) (s c : Key) (x : Nat × Nat) : Prop := (w.owner x.1 = s ∧ w.owner x.2 = c) ∨ (w.owner x.2 = s ∧ w.owner x.1 = c)

/-- The cups between words of the tree follow the tree: every such cup joins a node with one of its children; for every child there are cups, which are on the same side of the word, and whose wires at the child,
read in the opposite order of the wires of the word above, have the type of the child. -/
structure Follows (w : Wiring) (cups : List (Nat × Nat)) (t : PTree) : Prop where
  nodup : (keys t).Nodup
  joined : ∀ c ∈ cups, w.owner c.1 ∈ keys t → w.owner c.2 ∈ keys t → ∃ s ∈ t.subs, ∃ ch ∈ s.children, Between w (key s) (key ch) c
  typ : ∀ s ∈ t.subs, ∀ ch ∈ s.children, (mates w cups (key s) (key ch)).map w.type = ch.typ.reverse ∧ ch.typ ≠ []
  side : ∀ s ∈ t.subs, ∀ ch ∈ s.children, (∀ c ∈ cups, Between w (key s) (key ch) c → w.owner c.1 = key s) ∨ (∀ c ∈ cups, Between w (key s) (key ch) c → w.owner c.2 = key s)

/-! ## The children of a word -/

theorem mem_addTy {k : Key} {t : Ob} {l : List (Key × Ty)} (hn : (l.map Prod.fst).Nodup) (e : Key × Ty) :
    e ∈ addTy k t l ↔ (e.1 ≠ k ∧ e ∈ l) ∨ (e.1 = k ∧ ∃ ty, (k, ty) ∈ l ∧ e.2 = t :: ty) := by
  induction l with
  | nil => simp [addTy]
  | cons x l ih =>
    simp only [List.map_cons, List.nodup_cons] at hn
    have := ih hn.2
    obtain ⟨ek, et⟩ := e
    obtain ⟨xk, xt⟩ := x
    simp only [addTy]
    split
    · rename_i h
      subst h
      simp only [List.mem_cons, Prod.mk.injEq]
      constructor
      · rintro (⟨rfl, rfl⟩ | h)
        · exact .inr ⟨rfl, xt, .inl (by simp), rfl⟩
        · refine .inl ⟨?_, .inr h⟩
          rintro rfl
          exact hn.1 (List.mem_map.2 ⟨_, h, rfl⟩)
      · rintro (⟨h1, h2 | h2⟩ | ⟨h1, ty, h2 | h2, h3⟩)
        · exact absurd h2.1 h1
        · exact .inr h2
        · exact .inl ⟨h1, by rw [h3]; simpa using h2⟩
        · exact absurd (List.mem_map.2 ⟨_, h2, rfl⟩) hn.1
    · rename_i h
      simp only [List.mem_cons, this, Prod.mk.injEq]
      constructor
      · rintro (⟨rfl, rfl⟩ | ⟨h1, h2⟩ | ⟨h1, ty, h2, h3⟩)
        · exact .inl ⟨h, .inl ⟨rfl, rfl⟩⟩
        · exact .inl ⟨h1, .inr h2⟩
        · exact .inr ⟨h1, ty, .inr h2, h3⟩
      · rintro (⟨h1, h2 | h2⟩ | ⟨h1, ty, h2 | h2, h3⟩)
        · exact .inl h2
        · exact .inr (.inl ⟨h1, h2⟩)
        · exact absurd h2.1.symm h
        · exact .inr (.inr ⟨h1, ty, h2, h3⟩)

/-- What was attached: side, word, type. -/
abbrev Ev := Bool × Key × Ob

def Kids.ev (ks : Kids) (e : Ev) : Kids := ks.attach e.1 e.2.1 e.2.2

/-- Every word is on one side. -/
def Sided (A : List Ev) : Prop := ∀ e ∈ A, ∀ f ∈ A, e.2.1 = f.2.1 → e.1 = f.1

/-- The type of a word after the events. -/
def tyOf (A : List Ev) (k : Key) : Ty := ((A.filter (fun e => decide (e.2.1 = k))).map (fun e => e.2.2)).reverse

structure Rep (A : List Ev) (K : Kids) : Prop where
  ok : K.OK
  nl : (K.left.map Prod.fst).Nodup
  nr : (K.right.map Prod.fst).Nodup
  left : ∀ e ∈ K.left, (∃ o, (false, e.1, o) ∈ A) ∧ e.2 = tyOf A e.1
  right : ∀ e ∈ K.right, (∃ o, (true, e.1, o) ∈ A) ∧ e.2 = tyOf A e.1
  all : ∀ e ∈ A, e.2.1 ∈ (if e.1 then K.right else K.left).map Prod.fst

theorem tyOf_snoc (A : List Ev) (e : Ev) (k : Key) : tyOf (A ++ [e]) k = if e.2.1 = k then e.2.2 :: tyOf A k else tyOf A k := by
  unfold tyOf
  rw [List.filter_append, List.map_append, List.reverse_append]
  by_cases h : e.2.1 = k
  · simp [h]
  · simp [h]

theorem rep_snoc {A : List Ev} {K : Kids} (h : Rep A K) (e : Ev) (hs : Sided (A ++ [e])) : Rep (A ++ [e]) (K.ev e) := by
  obtain ⟨b, k, t⟩ := e
  have hok := (attach_ok h.ok b k t).1
  have hside : ∀ f ∈ A, f.2.1 = k → f.1 = b := fun f hf he => hs f (by simp [hf]) (b, k, t) (by simp) he
  unfold Kids.ev
  simp only at hok ⊢
  unfold Kids.attach at hok ⊢
  by_cases hk : k ∈ (if b then K.right else K.left).map Prod.fst
  · rw [if_pos hk] at hok ⊢
    obtain ⟨b', hb'⟩ := Option.isSome_iff_exists.1 (h.ok.known k (by cases b <;> simp at hk ⊢ <;> tauto))
    have hbb : b' = b := by
      have := h.ok.side k b' hb'
      obtain ⟨x, hx, hxk⟩ := List.mem_map.1 this
      cases b'
      · obtain ⟨⟨o, ho⟩, _⟩ := h.left x hx
        exact hside _ ho hxk
      · obtain ⟨⟨o, ho⟩, _⟩ := h.right x hx
        exact hside _ ho hxk
    rw [hb'] at hok ⊢
    subst hbb
    cases b'
    · simp only [Option.getD_some, Bool.false_eq_true, if_false] at hok hk ⊢
      refine ⟨hok, by simpa [addTy_keys] using h.nl, h.nr, ?_, ?_, ?_⟩
      · intro e he
        simp only [mem_addTy h.nl] at he
        rw [tyOf_snoc]
        rcases he with ⟨h1, h2⟩ | ⟨h1, ty, h2, h3⟩
        · obtain ⟨⟨o, ho⟩, h4⟩ := h.left e h2
          exact ⟨⟨o, by simp [ho]⟩, by rw [if_neg (fun x => h1 x.symm)]; exact h4⟩
        · obtain ⟨⟨o, ho⟩, h4⟩ := h.left _ h2
          exact ⟨⟨t, by simp [h1]⟩, by rw [if_pos h1.symm, h3]; simp only at h4; rw [h4, h1]⟩
      · intro e he
        obtain ⟨⟨o, ho⟩, h4⟩ := h.right e he
        refine ⟨⟨o, by simp [ho]⟩, ?_⟩
        rw [tyOf_snoc, if_neg]
        · exact h4
        · intro hx
          have := hside _ ho hx.symm
          simp at this
      · intro e he
        rcases List.mem_append.1 he with he | he
        · have := h.all e he
          cases hb : e.1 <;> simpa [hb, addTy_keys] using this
        · simp only [List.mem_singleton] at he
          subst he
          simpa [addTy_keys] using hk
    · simp only [Option.getD_some, if_true] at hok hk ⊢
      refine ⟨hok, h.nl, by simpa [addTy_keys] using h.nr, ?_, ?_, ?_⟩
      · intro e he
        obtain ⟨⟨o, ho⟩, h4⟩ := h.left e he
        refine ⟨⟨o, by simp [ho]⟩, ?_⟩
        rw [tyOf_snoc, if_neg]
        · exact h4
        · intro hx
          have := hside _ ho hx.symm
          simp at this
      · intro e he
        simp only [mem_addTy h.nr] at he
        rw [tyOf_snoc]
        rcases he with ⟨h1, h2⟩ | ⟨h1, ty, h2, h3⟩
        · obtain ⟨⟨o, ho⟩, h4⟩ := h.right e h2
          exact ⟨⟨o, by simp [ho]⟩, by rw [if_neg (fun x => h1 x.symm)]; exact h4⟩
        · obtain ⟨⟨o, ho⟩, h4⟩ := h.right _ h2
          exact ⟨⟨t, by simp [h1]⟩, by rw [if_pos h1.symm, h3]; simp only at h4; rw [h4, h1]⟩
      · intro e he
        rcases List.mem_append.1 he with he | he
        · have := h.all e he
          cases hb : e.1 <;> simpa [hb, addTy_keys] using this
        · simp only [List.mem_singleton] at he
          subst he
          simpa [addTy_keys] using hk
  · rw [if_neg hk] at hok ⊢
    have hno : ∀ f ∈ A, f.2.1 ≠ k := by
      intro f hf he
      have h1 := hside f hf he
      have h2 := h.all f hf
      rw [h1, he] at h2
      exact hk h2
    have ht0 : tyOf A k = [] := by
      unfold tyOf
      rw [List.filter_eq_nil_iff.2 (by intro f hf; simpa using hno f hf)]
      rfl
    cases b
    · simp only [Bool.false_eq_true, if_false] at hok hk ⊢
      refine ⟨hok, ?_, h.nr, ?_, ?_, ?_⟩
      · simp only [List.map_cons, List.nodup_cons]; exact ⟨hk, h.nl⟩
      · intro e he
        rw [tyOf_snoc]
        rcases List.mem_cons.1 he with rfl | he
        · exact ⟨⟨t, by simp⟩, by rw [if_pos rfl, ht0]⟩
        · obtain ⟨⟨o, ho⟩, h4⟩ := h.left e he
          exact ⟨⟨o, by simp [ho]⟩, by rw [if_neg (fun x => hno _ ho x.symm)]; exact h4⟩
      · intro e he
        obtain ⟨⟨o, ho⟩, h4⟩ := h.right e he
        refine ⟨⟨o, by simp [ho]⟩, ?_⟩
        rw [tyOf_snoc, if_neg (fun x => hno _ ho x.symm)]
        exact h4
      · intro e he
        rcases List.mem_append.1 he with he | he
        · have := h.all e he
          cases hb : e.1
          · simp only [hb, Bool.false_eq_true, if_false] at this ⊢
            exact List.mem_cons_of_mem _ this
          · simp only [hb, if_true] at this ⊢
            exact this
        · simp only [List.mem_singleton] at he
          subst he
          simp
    · simp only [if_true] at hok hk ⊢
      refine ⟨hok, h.nl, ?_, ?_, ?_, ?_⟩
      · simp only [List.map_cons, List.nodup_cons]; exact ⟨hk, h.nr⟩
      · intro e he
        obtain ⟨⟨o, ho⟩, h4⟩ := h.left e he
        refine ⟨⟨o, by simp [ho]⟩, ?_⟩
        rw [tyOf_snoc, if_neg (fun x => hno _ ho x.symm)]
        exact h4
      · intro e he
        rw [tyOf_snoc]
        rcases List.mem_cons.1 he with rfl | he
        · exact ⟨⟨t, by simp⟩, by rw [if_pos rfl, ht0]⟩
        · obtain ⟨⟨o, ho⟩, h4⟩ := h.right e he
          exact ⟨⟨o, by simp [ho]⟩, by rw [if_neg (fun x => hno _ ho x.symm)]; exact h4⟩
      · intro e he
        rcases List.mem_append.1 he with he | he
        · have := h.all e he
          cases hb : e.1
          · simp only [hb, Bool.false_eq_true, if_false] at this ⊢
            exact this
          · simp only [hb, if_true] at this ⊢
            exact List.mem_cons_of_mem _ this
        · simp only [List.mem_singleton] at he
          subst he
          simp

theorem rep_all (A : List Ev) (hs : Sided A) : Rep A (A.foldl Kids.ev ⟨[], [], []⟩) := by
  induction A using List.reverseRecOn with
  | nil => exact ⟨⟨by simp, by simp⟩, by simp, by simp, by simp, by simp, by simp⟩
  | append_singleton A e ih =>
    rw [List.foldl_append]
    exact rep_snoc (ih (fun x hx y hy => hs x (by simp [hx]) y (by simp [hy]))) e hs

/-- The children after events: every word once, with its type. -/
theorem kids_spec (A : List Ev) (hs : Sided A) : let K := A.foldl Kids.ev ⟨[], [], []⟩
    ((K.left ++ K.right).map Prod.fst).Nodup ∧ ∀ e, e ∈ K.left ++ K.right ↔ (∃ f ∈ A, f.2.1 = e.1) ∧ e.2 = tyOf A e.1 := by
  intro K
  have h : Rep A K := rep_all A hs
  constructor
  · rw [List.map_append, List.nodup_append]
    refine ⟨h.nl, h.nr, ?_⟩
    intro a ha b hb e
    subst e
    obtain ⟨x, hx, rfl⟩ := List.mem_map.1 ha
    obtain ⟨y, hy, hyx⟩ := List.mem_map.1 hb
    obtain ⟨⟨o, ho⟩, _⟩ := h.left x hx
    obtain ⟨⟨o', ho'⟩, _⟩ := h.right y hy
    have := hs _ ho _ ho' hyx.symm
    simp at this
  · intro e
    rw [List.mem_append]
    constructor
    · rintro (he | he)
      · obtain ⟨⟨o, ho⟩, h2⟩ := h.left e he
        exact ⟨⟨_, ho, rfl⟩, h2⟩
      · obtain ⟨⟨o, ho⟩, h2⟩ := h.right e he
        exact ⟨⟨_, ho, rfl⟩, h2⟩
    · rintro ⟨⟨f, hf, hfe⟩, h2⟩
      have := h.all f hf
      cases hb : f.1
      · simp only [hb, Bool.false_eq_true, if_false] at this
        obtain ⟨x, hx, hxf⟩ := List.mem_map.1 this
        left
        have h3 := (h.left x hx).2
        have : x = e := Prod.ext (hxf.trans hfe) (by rw [h3, h2, hxf, hfe])
        rwa [← this]
      · simp only [hb, if_true] at this
        obtain ⟨x, hx, hxf⟩ := List.mem_map.1 this
        right
        have h3 := (h.right x hx).2
        have : x = e := Prod.ext (hxf.trans hfe) (by rw [h3, h2, hxf, hfe])
        rwa [← this]


/-! ## The cups of a word -/

theorem filter_of_sublist {l m : List Nat} (h : l.Sublist m) (hn : m.Nodup) (Q : Nat → Bool) (hq : ∀ x ∈ m, x ∈ l ↔ Q x = true) : l = m.filter Q := by
  induction h with
  | slnil => rfl
  | @cons l m a h ih =>
    have hn' := List.nodup_cons.1 hn
    have ha : ¬ Q a = true := fun hx => hn'.1 (h.subset ((hq a (by simp)).2 hx))
    rw [List.filter_cons_of_neg ha]
    exact ih hn'.2 (fun x hx => hq x (by simp [hx]))
  | @cons_cons l m a h ih =>
    have hn' := List.nodup_cons.1 hn
    have ha : Q a = true := (hq a (by simp)).1 (by simp)
    rw [List.filter_cons_of_pos ha]
    congr 1
    refine ih hn'.2 (fun x hx => ?_)
    rw [← hq x (by simp [hx])]
    have : x ≠ a := by rintro rfl; exact hn'.1 hx
    simp [this]

theorem cup_unique {cups : List (Nat × Nat)} (hn : (ends cups).Nodup) {c c' : Nat × Nat} (h : c ∈ cups) (h' : c' ∈ cups) {i : Nat} (hi : c.1 = i ∨ c.2 = i) (hi' : c'.1 = i ∨ c'.2 = i) : c = c' := by
  by_contra hne
  have hp := List.perm_cons_erase h
  have hm : c' ∈ cups.erase c := (List.mem_erase_of_ne (Ne.symm hne)).2 h'
  have hnd := (ends_perm hp).nodup_iff.1 hn
  have e : ends (c :: cups.erase c) = [c.1, c.2] ++ ends (cups.erase c) := by simp [ends]
  rw [e, List.nodup_append] at hnd
  exact hnd.2.2 i (by rcases hi with h | h <;> simp [h]) i (mem_ends.2 ⟨c', hm, hi'⟩) rfl

theorem cup_ne {cups : List (Nat × Nat)} (hn : (ends cups).Nodup) {c : Nat × Nat} (h : c ∈ cups) : c.1 ≠ c.2 := by
  have hp := List.perm_cons_erase h
  have hnd := (ends_perm hp).nodup_iff.1 hn
  have e : ends (c :: cups.erase c) = [c.1, c.2] ++ ends (cups.erase c) := by simp [ends]
  rw [e, List.nodup_append] at hnd
  simpa using hnd.1

theorem mate_use {cups : List (Nat × Nat)} (hn : (ends cups).Nodup) {u : Use} (h : u.cup ∈ cups) : mate cups u.parent = some u.child := by
  have hp : u.cup.1 = u.parent ∨ u.cup.2 = u.parent := by unfold Use.parent; cases u.toRight <;> simp
  unfold mate
  cases hf : cups.find? (fun c => decide (c.1 = u.parent ∨ c.2 = u.parent)) with
  | none =>
    have := List.find?_eq_none.1 hf _ h
    simp [hp] at this
  | some c =>
    have h1 := List.mem_of_find?_eq_some hf
    have h2 : c.1 = u.parent ∨ c.2 = u.parent := by simpa using List.find?_some hf
    have := cup_unique hn h1 h h2 hp
    subst this
    have hne := cup_ne hn h
    obtain ⟨b, c⟩ := u
    simp only [Option.map_some, Option.some.injEq, Use.parent, Use.child] at hne ⊢
    cases b
    · simp
    · simp [Ne.symm hne]

theorem mate_some {cups : List (Nat × Nat)} {i j : Nat} (h : mate cups i = some j) : ∃ c ∈ cups, (c.1 = i ∧ c.2 = j) ∨ (c.2 = i ∧ c.1 = j) := by
  unfold mate at h
  obtain ⟨c, h1, h2⟩ := Option.map_eq_some_iff.1 h
  have h3 := List.mem_of_find?_eq_some h1
  have h4 : c.1 = i ∨ c.2 = i := by simpa using List.find?_some h1
  refine ⟨c, h3, ?_⟩
  split at h2
  · exact .inr ⟨‹_›, h2⟩
  · exact .inl ⟨h4.resolve_right ‹_›, h2⟩

theorem indices_nodup (owners : List Key) (k : Key) : (indices owners k).Nodup := List.nodup_range.filter _

theorem mem_indices_owner {w : Wiring} {k : Key} {i : Nat} (hi : i < w.owners.length) : i ∈ indices w.owners k ↔ w.owner i = k := by
  rw [mem_indices, List.getElem?_eq_getElem hi]
  simp [Wiring.owner, List.getD_eq_getElem?_getD, List.getElem?_eq_getElem hi]

/-! ## Trees -/

theorem mem_keys {t : PTree} {k : Key} : k ∈ keys t ↔ ∃ s ∈ t.subs, key s = k := by
  simp [keys, key]

theorem keys_child {s : String} {i : Nat} {ty : Ty} {cs : List PTree} {c : PTree} (h : c ∈ cs) {k : Key} (hk : k ∈ keys c) : k ∈ keys (.node s i ty cs) := by
  rw [keys_node]
  exact List.mem_cons_of_mem _ (List.mem_flatMap.2 ⟨c, h, hk⟩)

theorem key_mem (t : PTree) : key t ∈ keys t := by
  cases t
  rw [keys_node]
  simp [key, PTree.word, PTree.ind]

/-- The nodes of a tree have different words. -/
theorem nodup_parts {s : String} {i : Nat} {ty : Ty} {cs : List PTree} (h : (keys (.node s i ty cs)).Nodup) :
    (∀ c ∈ cs, (s, i) ∉ keys c) ∧ (∀ c ∈ cs, (keys c).Nodup) ∧ cs.Pairwise (fun a b => List.Disjoint (keys a) (keys b)) := by
  rw [keys_node, List.nodup_cons, List.nodup_flatMap] at h
  refine ⟨?_, h.2.1, h.2.2⟩
  intro c hc hk
  exact h.1 (List.mem_flatMap.2 ⟨c, hc, hk⟩)

theorem disjoint_of_mem {cs : List PTree} (h : cs.Pairwise (fun a b => List.Disjoint (keys a) (keys b))) {a b : PTree} (ha : a ∈ cs) (hb : b ∈ cs) {k : Key} (h1 : k ∈ keys a) (h2 : k ∈ keys b) : a = b := by
  induction h with
  | nil => simp at ha
  | cons hx _ ih =>
    rcases List.mem_cons.1 ha with e1 | e1 <;> rcases List.mem_cons.1 hb with e2 | e2
    · rw [e1, e2]
    · exact absurd h2 (fun h2 => hx b e2 (e1 ▸ h1) h2)
    · exact absurd h1 (fun h1 => hx a e1 (e2 ▸ h2) h1)
    · exact ih e1 e2

theorem ends_sublist {a b : List (Nat × Nat)} (h : a.Sublist b) : (ends a).Sublist (ends b) := by
  induction h with
  | slnil => exact List.Sublist.refl _
  | cons x _ ih => exact (ih.cons _).cons _
  | cons_cons x _ ih => exact (ih.cons_cons _).cons_cons _

theorem Follows.child {w : Wiring} {cups : List (Nat × Nat)} {s : String} {i : Nat} {ty : Ty} {cs : List PTree} (h : Follows w cups (.node s i ty cs)) {c : PTree} (hc : c ∈ cs) : Follows w cups c := by
  obtain ⟨n1, n2, n3⟩ := nodup_parts h.nodup
  have hsub : ∀ x ∈ c.subs, x ∈ (PTree.node s i ty cs).subs := by
    intro x hx
    rw [PTree.subs_node]
    exact List.mem_cons_of_mem _ (List.mem_flatMap.2 ⟨c, hc, hx⟩)
  refine ⟨n2 c hc, ?_, fun x hx => h.typ x (hsub x hx), fun x hx => h.side x (hsub x hx)⟩
  intro x hx h1 h2
  obtain ⟨a, ha, ch, hch, hb⟩ := h.joined x hx (keys_child hc h1) (keys_child hc h2)
  rw [PTree.subs_node] at ha
  have hka : key a ∈ keys c := by rcases hb with ⟨e, _⟩ | ⟨e, _⟩ <;> rw [← e] <;> assumption
  rcases List.mem_cons.1 ha with rfl | ha
  · exact absurd hka (n1 c hc)
  · obtain ⟨c', hc', ha⟩ := List.mem_flatMap.1 ha
    have := disjoint_of_mem n3 hc hc' hka (mem_keys.2 ⟨a, ha, rfl⟩)
    subst this
    exact ⟨a, ha, ch, hch, hb⟩

/-- The cups that the subtree `s` will find in `R`: all cups between its words, and no other cup at its words. -/
structure Ready (w : Wiring) (cups : List (Nat × Nat)) (s : PTree) (R : List (Nat × Nat)) : Prop where
  inside : ∀ c ∈ cups, w.owner c.1 ∈ keys s → w.owner c.2 ∈ keys s → c ∈ R
  closed : ∀ c ∈ R, w.owner c.1 ∈ keys s ∨ w.owner c.2 ∈ keys s → w.owner c.1 ∈ keys s ∧ w.owner c.2 ∈ keys s

/-- The subtree was built, and only its cups were used. -/
def Built (w : Wiring) (s : PTree) (R : List (Nat × Nat)) (r : PTree × List (Nat × Nat)) : Prop :=
  PTree.SameTree s r.1 ∧ r.2.Sublist R ∧ ∀ c, c ∈ r.2 ↔ c ∈ R ∧ w.owner c.1 ∉ keys s ∧ w.owner c.2 ∉ keys s

theorem thread_built {w : Wiring} {cups : List (Nat × Nat)} (f : Key × Ty → List (Nat × Nat) → PTree × List (Nat × Nat)) (cs : List PTree) (hd : cs.Pairwise (fun a b => List.Disjoint (keys a) (keys b)))
    (R : List (Nat × Nat)) (hR : ∀ c ∈ cs, Ready w cups c R) (hf : ∀ c ∈ cs, ∀ R', R'.Sublist R → Ready w cups c R' → Built w c R' (f (key c, c.typ) R')) :
    List.Forall₂ PTree.SameTree cs (thread f (cs.map (fun c => (key c, c.typ))) R).1 ∧ (thread f (cs.map (fun c => (key c, c.typ))) R).2.Sublist R ∧
      ∀ x, x ∈ (thread f (cs.map (fun c => (key c, c.typ))) R).2 ↔ x ∈ R ∧ ∀ c ∈ cs, w.owner x.1 ∉ keys c ∧ w.owner x.2 ∉ keys c := by
  induction cs generalizing R with
  | nil => exact ⟨.nil, List.Sublist.refl _, by simp [thread]⟩
  | cons c cs ih =>
    obtain ⟨b1, b2, b3⟩ := hf c (by simp) R (List.Sublist.refl _) (hR c (by simp))
    have hd' := List.pairwise_cons.1 hd
    obtain ⟨i1, i2, i3⟩ := ih hd'.2 (f (key c, c.typ) R).2 (by
      intro c' hc'
      have hr := hR c' (by simp [hc'])
      have hdis := hd'.1 c' hc'
      refine ⟨?_, fun x hx => hr.closed x (b2.subset hx)⟩
      intro x hx h1 h2
      exact (b3 x).2 ⟨hr.inside x hx h1 h2, fun h => hdis h h1, fun h => hdis h h2⟩)
      (fun c' hc' R' hs hr => hf c' (by simp [hc']) R' (hs.trans b2) hr)
    simp only [List.map_cons, thread]
    refine ⟨.cons b1 i1, i2.trans b2, ?_⟩
    intro x
    rw [i3, b3]
    simp only [List.mem_cons, forall_eq_or_imp]
    tauto

/-- The children of a node: the visit finds them, with their types. -/
theorem visit_spec {w : Wiring} {cups R : List (Nat × Nat)} {s : String} {i : Nat} {ty : Ty} {cs : List PTree} (hg : Good w cups) (hF : Follows w cups (.node s i ty cs)) (hs : R.Sublist cups)
    (hR : Ready w cups (.node s i ty cs) R) :
    (w.visit (s, i) R).1.Perm (cs.map (fun c => (key c, c.typ))) ∧ (w.visit (s, i) R).2.Sublist R ∧ (cs ≠ [] → (w.visit (s, i) R).2.length < R.length) ∧
      ∀ c, c ∈ (w.visit (s, i) R).2 ↔ c ∈ R ∧ w.owner c.1 ≠ (s, i) ∧ w.owner c.2 ≠ (s, i) := by
  obtain ⟨n1, n2, n3⟩ := nodup_parts hF.nodup
  have hgR : Good w R := by
    refine ⟨?_, ?_, ?_⟩
    · exact hg.nodup.sublist (ends_sublist hs)
    · intro x hx; exact hg.free x ((ends_sublist hs).subset hx)
    · intro x hx; exact hg.lt x ((ends_sublist hs).subset hx)
  have hlt : ∀ c ∈ R, c.1 < w.owners.length ∧ c.2 < w.owners.length := fun c hc => ⟨hgR.lt _ (mem_ends.2 ⟨c, hc, .inl rfl⟩), hgR.lt _ (mem_ends.2 ⟨c, hc, .inr rfl⟩)⟩
  have hroot : (PTree.node s i ty cs) ∈ (PTree.node s i ty cs).subs := by rw [PTree.subs_node]; simp
  -- cups of the word go to children
  have hgo : ∀ c ∈ R, (w.owner c.1 = (s, i) ∨ w.owner c.2 = (s, i)) → ∃ ch ∈ cs, Between w (s, i) (key ch) c := by
    intro c hc hsi
    have hk : (s, i) ∈ keys (.node s i ty cs) := key_mem _
    obtain ⟨o1, o2⟩ := hR.closed c hc (by rcases hsi with h | h <;> rw [h] <;> simp [hk])
    obtain ⟨a, ha, ch, hch, hb⟩ := hF.joined c (hs.subset hc) o1 o2
    rw [PTree.subs_node] at ha
    rcases List.mem_cons.1 ha with rfl | ha
    · exact ⟨ch, hch, hb⟩
    · obtain ⟨c', hc', ha'⟩ := List.mem_flatMap.1 ha
      exfalso
      have h1 : key a ∈ keys c' := mem_keys.2 ⟨a, ha', rfl⟩
      have h2 : key ch ∈ keys c' := mem_keys.2 ⟨ch, by
        have : ∀ (t x y : PTree), x ∈ t.subs → y ∈ x.children → y ∈ t.subs := by
          intro t
          induction t using PTree.ind' with
          | _ w i t cs ih =>
            intro x y hx hy
            rw [PTree.subs_node] at hx ⊢
            rcases List.mem_cons.1 hx with rfl | hx
            · refine List.mem_cons_of_mem _ (List.mem_flatMap.2 ⟨y, hy, ?_⟩)
              cases y
              rw [PTree.subs_node]; simp
            · obtain ⟨z, hz, hx⟩ := List.mem_flatMap.1 hx
              exact List.mem_cons_of_mem _ (List.mem_flatMap.2 ⟨z, hz, ih z hz x y hx hy⟩)
        exact this c' a ch ha' hch, rfl⟩
      have : (s, i) ∈ keys c' := by
        rcases hb with ⟨e1, e2⟩ | ⟨e1, e2⟩ <;> rcases hsi with e | e <;> (first | (rw [← e, e1]; exact h1) | (rw [← e, e2]; exact h2))
      exact n1 c' hc' this
  obtain ⟨us, u1, u2, u3, u4, u5⟩ := visit_uses w (indices w.owners (s, i)) ⟨[], [], []⟩ R hgR
  have hpar : ∀ u ∈ us, w.owner u.parent = (s, i) := fun u hu => owner_eq (mem_indices.1 (u2.subset (List.mem_map_of_mem hu)))
  have hcupR : ∀ u ∈ us, u.cup ∈ R := fun u hu => u3.mem_iff.2 (List.mem_append.2 (.inl (List.mem_map_of_mem hu)))
  have hch : ∀ u ∈ us, ∃ ch ∈ cs, w.owner u.child = key ch ∧ Between w (s, i) (key ch) u.cup := by
    intro u hu
    have hp := hpar u hu
    obtain ⟨ch, hc, hb⟩ := hgo u.cup (hcupR u hu) (by unfold Use.parent at hp; cases hr : u.toRight <;> simp [hr] at hp <;> simp [hp])
    refine ⟨ch, hc, ?_, hb⟩
    have hne : key ch ≠ (s, i) := fun e => n1 ch hc (e ▸ key_mem ch)
    unfold Use.parent at hp
    unfold Use.child
    cases hr : u.toRight
    · simp only [hr, Bool.false_eq_true, if_false] at hp ⊢
      rcases hb with ⟨e1, e2⟩ | ⟨e1, e2⟩
      · rw [hp] at e2; exact absurd e2.symm hne
      · exact e2
    · simp only [hr, if_true] at hp ⊢
      rcases hb with ⟨e1, e2⟩ | ⟨e1, e2⟩
      · exact e2
      · rw [hp] at e2; exact absurd e2.symm hne
  have hmate : ∀ u ∈ us, mate cups u.parent = some u.child := fun u hu => mate_use hg.nodup (hs.subset (hcupR u hu))
  -- the wires that are visited
  have hparents : us.map Use.parent = (indices w.owners (s, i)).filter (fun x => ((mate cups x).map (fun j => decide (∃ ch ∈ cs, w.owner j = key ch))).getD false) := by
    refine filter_of_sublist u2 (indices_nodup _ _) _ ?_
    intro x hx
    constructor
    · intro hm
      obtain ⟨u, hu, rfl⟩ := List.mem_map.1 hm
      obtain ⟨ch, hc, h1, _⟩ := hch u hu
      rw [hmate u hu]
      simp only [Option.map_some, Option.getD_some, decide_eq_true_eq]
      exact ⟨ch, hc, h1⟩
    · intro hq
      cases hm : mate cups x with
      | none => rw [hm] at hq; simp at hq
      | some j =>
        rw [hm] at hq
        simp only [Option.map_some, Option.getD_some, decide_eq_true_eq] at hq
        obtain ⟨ch, hc, hj⟩ := hq
        obtain ⟨c, hcm, hcx⟩ := mate_some hm
        have hxo := owner_eq (mem_indices.1 hx)
        have hk : (s, i) ∈ keys (.node s i ty cs) := key_mem _
        have hkc : key ch ∈ keys (.node s i ty cs) := keys_child hc (key_mem ch)
        have hcR : c ∈ R := by
          refine hR.inside c hcm ?_ ?_
          · rcases hcx with ⟨e1, e2⟩ | ⟨e1, e2⟩
            · rw [e1, hxo]; exact hk
            · rw [e2, hj]; exact hkc
          · rcases hcx with ⟨e1, e2⟩ | ⟨e1, e2⟩
            · rw [e2, hj]; exact hkc
            · rw [e1, hxo]; exact hk
        rcases List.mem_append.1 (u3.mem_iff.1 hcR) with h | h
        · obtain ⟨u, hu, hcu⟩ := List.mem_map.1 h
          refine List.mem_map.2 ⟨u, hu, ?_⟩
          have hp := hpar u hu
          have hne : key ch ≠ (s, i) := fun e => n1 ch hc (e ▸ key_mem ch)
          have hpj : u.parent ≠ j := by intro e; rw [e, hj] at hp; exact hne hp
          have : u.parent = c.1 ∨ u.parent = c.2 := by unfold Use.parent; rw [hcu]; cases u.toRight <;> simp
          rcases hcx with ⟨e1, e2⟩ | ⟨e1, e2⟩
          · rw [e1, e2] at this; exact this.resolve_right hpj
          · rw [e1, e2] at this; exact this.resolve_left hpj
        · exact absurd (mem_ends.2 ⟨c, h, by rcases hcx with ⟨e, _⟩ | ⟨e, _⟩ <;> simp [e]⟩) (u5 x hx)
  have hchild : us.map Use.child = ((indices w.owners (s, i)).filterMap (mate cups)).filter (fun j => decide (∃ ch ∈ cs, w.owner j = key ch)) := by
    have e1 : us.map Use.child = (us.map Use.parent).filterMap (mate cups) := by
      clear * - hmate
      induction us with
      | nil => rfl
      | cons u us ih =>
        simp only [List.map_cons, List.filterMap_cons, hmate u (by simp)]
        rw [ih (fun v hv => hmate v (by simp [hv]))]
    rw [e1, hparents, List.filterMap_filter, List.filter_filterMap]
    congr 1
    funext x
    cases hm : mate cups x with
    | none => simp
    | some j =>
      simp only [Option.map_some, Option.getD_some, Option.bind_some]
      by_cases hq : ∃ ch ∈ cs, w.owner j = key ch
      · simp [hq, Option.filter]
      · simp [hq, Option.filter]
  -- events
  have hev : ∀ (us : List Use) (K : Kids), us.foldl (Kids.use w) K = (us.map (fun u => ((u.toRight, w.owner u.child, w.type u.child) : Ev))).foldl Kids.ev K := by
    intro us
    induction us with
    | nil => intro K; rfl
    | cons u us ih => intro K; simp only [List.foldl_cons, List.map_cons]; rw [ih]; rfl
  have hsided : Sided (us.map (fun u => ((u.toRight, w.owner u.child, w.type u.child) : Ev))) := by
    intro e he f hf hef
    obtain ⟨u, hu, rfl⟩ := List.mem_map.1 he
    obtain ⟨v, hv, rfl⟩ := List.mem_map.1 hf
    simp only at hef ⊢
    obtain ⟨ch, hc, h1, hb⟩ := hch u hu
    obtain ⟨ch', hc', h1', hb'⟩ := hch v hv
    rw [h1, h1'] at hef
    have hne : key ch ≠ (s, i) := fun e => n1 ch hc (e ▸ key_mem ch)
    rw [← hef] at hb' h1'
    have hcu := hs.subset (hcupR u hu)
    have hcv := hs.subset (hcupR v hv)
    have hdir : ∀ z ∈ us, w.owner z.child = key ch → (w.owner z.cup.1 = (s, i) → z.toRight = true) ∧ (w.owner z.cup.2 = (s, i) → z.toRight = false) := by
      intro z hz hzc
      unfold Use.child at hzc
      constructor
      · intro e
        cases hr : z.toRight
        · simp only [hr, Bool.false_eq_true, if_false] at hzc
          rw [e] at hzc; exact absurd hzc.symm hne
        · rfl
      · intro e
        cases hr : z.toRight
        · rfl
        · simp only [hr, if_true] at hzc
          rw [e] at hzc; exact absurd hzc.symm hne
    rcases hF.side _ hroot ch hc with h | h
    · rw [(hdir u hu h1).1 (h _ hcu hb), (hdir v hv h1').1 (h _ hcv hb')]
    · rw [(hdir u hu h1).2 (h _ hcu hb), (hdir v hv h1').2 (h _ hcv hb')]
  obtain ⟨k1, k2⟩ := kids_spec _ hsided
  rw [← hev, ← u1] at k1 k2
  have hty : ∀ ch ∈ cs, tyOf (us.map (fun u => ((u.toRight, w.owner u.child, w.type u.child) : Ev))) (key ch) = ch.typ := by
    intro ch hc
    have h1 := (hF.typ _ hroot ch hc).1
    unfold tyOf
    rw [← List.reverse_reverse ch.typ, ← h1]
    congr 1
    have e1 : ((us.map (fun u => ((u.toRight, w.owner u.child, w.type u.child) : Ev))).filter (fun e => decide (e.2.1 = key ch))).map (fun e => e.2.2) =
        ((us.map Use.child).filter (fun j => decide (w.owner j = key ch))).map w.type := by
      clear * -
      induction us with
      | nil => rfl
      | cons u us ih =>
        simp only [List.map_cons, List.filter_cons]
        by_cases h : w.owner u.child = key ch
        · simp only [h, decide_true, if_true, List.map_cons, ih]
        · simp only [h, decide_false, Bool.false_eq_true, if_false, ih]
    rw [e1, hchild, List.filter_filter]
    congr 1
    unfold mates
    show _ = (((indices w.owners (s, i)).filterMap (mate cups)).filter _)
    refine List.filter_congr ?_
    intro j _
    by_cases h : w.owner j = key ch
    · simp only [h, decide_true, Bool.true_and, decide_eq_true_eq]
      exact ⟨ch, hc, rfl⟩
    · simp [h]
  refine ⟨?_, u4, ?_, ?_⟩
  · have hkn : (cs.map key).Nodup := by
      rw [List.nodup_map_iff_inj_on]
      · intro a ha b hb e
        exact disjoint_of_mem n3 ha hb (key_mem a) (e ▸ key_mem b)
      · refine n3.imp ?_
        intro a b h e
        subst e
        exact h (key_mem _) (key_mem _)
    refine (List.perm_ext_iff_of_nodup (List.Nodup.of_map _ k1) (List.Nodup.of_map Prod.fst (by simpa [List.map_map, Function.comp_def] using hkn))).2 ?_
    intro e
    show e ∈ ((indices w.owners (s, i)).foldl w.visitWire (⟨[], [], []⟩, R)).1.left ++ ((indices w.owners (s, i)).foldl w.visitWire (⟨[], [], []⟩, R)).1.right ↔ _
    rw [k2 e]
    simp only [List.mem_map]
    constructor
    · rintro ⟨⟨f, ⟨u, hu, rfl⟩, hf⟩, h2⟩
      obtain ⟨ch, hc, h1, _⟩ := hch u hu
      simp only at hf
      rw [h1] at hf
      refine ⟨ch, hc, Prod.ext hf ?_⟩
      rw [h2, ← hf, hty ch hc]
    · rintro ⟨ch, hc, rfl⟩
      refine ⟨?_, (hty ch hc).symm⟩
      have h1 := (hF.typ _ hroot ch hc)
      have hne : mates w cups (s, i) (key ch) ≠ [] := by
        intro h0
        have := h1.1
        rw [show key (PTree.node s i ty cs) = (s, i) from rfl, h0] at this
        exact h1.2 (by simpa using this.symm)
      obtain ⟨j, hj⟩ := List.exists_mem_of_ne_nil _ hne
      have hj' := List.mem_filter.1 hj
      have hjc : j ∈ us.map Use.child := by
        rw [hchild]
        exact List.mem_filter.2 ⟨hj'.1, by simpa using ⟨ch, hc, by simpa using hj'.2⟩⟩
      obtain ⟨u, hu, rfl⟩ := List.mem_map.1 hjc
      exact ⟨_, ⟨u, hu, rfl⟩, by simpa using hj'.2⟩
  · intro hne
    obtain ⟨ch, cs', rfl⟩ := List.exists_cons_of_ne_nil hne
    have h1 := (hF.typ _ hroot ch (by simp [PTree.children]))
    have hne : mates w cups (s, i) (key ch) ≠ [] := by
      intro h0
      have := h1.1
      rw [show key (PTree.node s i ty (ch :: cs')) = (s, i) from rfl, h0] at this
      exact h1.2 (by simpa using this.symm)
    obtain ⟨j, hj⟩ := List.exists_mem_of_ne_nil _ hne
    have hj' := List.mem_filter.1 hj
    have hjc : j ∈ us.map Use.child := by
      rw [hchild]
      exact List.mem_filter.2 ⟨hj'.1, by simp [by simpa using hj'.2]⟩
    have hl := u3.length_eq
    have h0 : 0 < us.length := by
      rcases us with _ | ⟨u, us⟩
      · simp at hjc
      · simp
    simp only [List.length_append, List.length_map] at hl
    show ((indices w.owners (s, i)).foldl w.visitWire (⟨[], [], []⟩, R)).2.length < R.length
    omega
  · intro c
    show c ∈ ((indices w.owners (s, i)).foldl w.visitWire (⟨[], [], []⟩, R)).2 ↔ _
    constructor
    · intro hc
      have hcR := u4.subset hc
      refine ⟨hcR, ?_, ?_⟩
      · intro e
        exact u5 c.1 ((mem_indices_owner (hlt c hcR).1).2 e) (mem_ends.2 ⟨c, hc, .inl rfl⟩)
      · intro e
        exact u5 c.2 ((mem_indices_owner (hlt c hcR).2).2 e) (mem_ends.2 ⟨c, hc, .inr rfl⟩)
    · rintro ⟨hcR, h1, h2⟩
      rcases List.mem_append.1 (u3.mem_iff.1 hcR) with h | h
      · obtain ⟨u, hu, rfl⟩ := List.mem_map.1 h
        have hp := hpar u hu
        unfold Use.parent at hp
        split at hp
        · exact absurd hp h1
        · exact absurd hp h2
      · exact h

theorem grow_built {w : Wiring} {cups : List (Nat × Nat)} (hg : Good w cups) (t : PTree) : ∀ (n : Nat) (R : List (Nat × Nat)), Follows w cups t → R.Sublist cups → R.length < n → Ready w cups t R →
    Built w t R (w.grow n (key t, t.typ) R) := by
  induction t using PTree.ind' with
  | _ s i ty cs ih =>
    intro n R hF hs hn hR
    obtain ⟨n1, n2, n3⟩ := nodup_parts hF.nodup
    obtain ⟨m, rfl⟩ : ∃ m, n = m + 1 := ⟨n - 1, by omega⟩
    obtain ⟨v1, v2, v3, v4⟩ := visit_spec hg hF hs hR
    obtain ⟨cs', f1, f2⟩ : ∃ cs' : List PTree, cs'.Perm cs ∧ (w.visit (s, i) R).1 = cs'.map (fun c => (key c, c.typ)) := by
      have := List.perm_comp_forall₂ (r := fun (k : Key × Ty) (c : PTree) => k = (key c, c.typ)) v1 (v := cs) (by
        clear * -
        induction cs with
        | nil => exact .nil
        | cons c cs ih => exact .cons rfl ih)
      obtain ⟨x, hx1, hx2⟩ := this
      refine ⟨x, hx2, ?_⟩
      generalize (w.visit (s, i) R).1 = l at hx1
      clear * - hx1
      induction hx1 with
      | nil => rfl
      | cons h _ ih => rw [List.map_cons, ← h, ih]
    have hready : ∀ c ∈ cs, Ready w cups c (w.visit (s, i) R).2 := by
      intro c hc
      refine ⟨?_, ?_⟩
      · intro x hx h1 h2
        refine (v4 x).2 ⟨hR.inside x hx (keys_child hc h1) (keys_child hc h2), ?_, ?_⟩
        · intro e; rw [e] at h1; exact n1 c hc h1
        · intro e; rw [e] at h2; exact n1 c hc h2
      · intro x hx hor
        obtain ⟨hxR, hx1, hx2⟩ := (v4 x).1 hx
        obtain ⟨o1, o2⟩ := hR.closed x hxR (hor.imp (keys_child hc) (keys_child hc))
        obtain ⟨a, ha, ch, hch, hb⟩ := hF.joined x (hs.subset hxR) o1 o2
        rw [PTree.subs_node] at ha
        rcases List.mem_cons.1 ha with rfl | ha
        · exfalso
          rcases hb with ⟨e, _⟩ | ⟨e, _⟩
          · exact hx1 e
          · exact hx2 e
        · obtain ⟨c', hc', ha'⟩ := List.mem_flatMap.1 ha
          have h1 : key a ∈ keys c' := mem_keys.2 ⟨a, ha', rfl⟩
          have h2 : key ch ∈ keys c' := mem_keys.2 ⟨ch, by
            have : ∀ (t x y : PTree), x ∈ t.subs → y ∈ x.children → y ∈ t.subs := by
              intro t
              induction t using PTree.ind' with
              | _ w i t cs ih =>
                intro x y hx hy
                rw [PTree.subs_node] at hx ⊢
                rcases List.mem_cons.1 hx with rfl | hx
                · refine List.mem_cons_of_mem _ (List.mem_flatMap.2 ⟨y, hy, ?_⟩)
                  cases y
                  rw [PTree.subs_node]; simp
                · obtain ⟨z, hz, hx⟩ := List.mem_flatMap.1 hx
                  exact List.mem_cons_of_mem _ (List.mem_flatMap.2 ⟨z, hz, ih z hz x y hx hy⟩)
            exact this c' a ch ha' hch, rfl⟩
          have hboth : w.owner x.1 ∈ keys c' ∧ w.owner x.2 ∈ keys c' := by
            rcases hb with ⟨e1, e2⟩ | ⟨e1, e2⟩ <;> rw [e1, e2] <;> exact ⟨by assumption, by assumption⟩
          have : c = c' := by
            rcases hor with h | h
            · exact disjoint_of_mem n3 hc hc' h hboth.1
            · exact disjoint_of_mem n3 hc hc' h hboth.2
          rw [this]; exact hboth
    obtain ⟨t1, t2, t3⟩ := thread_built (w := w) (cups := cups) (w.grow m) cs' ((f1.pairwise_iff (by intro a b h x h1 h2; exact h h2 h1)).2 n3) (w.visit (s, i) R).2 (fun c hc => hready c (f1.mem_iff.1 hc)) (by
      intro c hc R' hs' hr
      have hc' := f1.mem_iff.1 hc
      refine ih c hc' m R' (hF.child hc') (hs'.trans (v2.trans hs)) ?_ hr
      have := v3 (List.ne_nil_of_mem hc')
      have := hs'.length_le
      omega)
    show Built w _ R (w.grow (m + 1) ((s, i), ty) R)
    simp only [Wiring.grow, f2]
    refine ⟨.mk s i ty cs cs' _ f1.symm t1, t2.trans v2, ?_⟩
    intro c
    rw [t3, v4, keys_node]
    simp only [List.mem_cons, List.mem_flatMap, not_or, not_exists, not_and]
    constructor
    · rintro ⟨⟨h1, h2, h3⟩, h4⟩
      exact ⟨h1, ⟨h2, fun x hx => (h4 x (f1.mem_iff.2 hx)).1⟩, ⟨h3, fun x hx => (h4 x (f1.mem_iff.2 hx)).2⟩⟩
    · rintro ⟨h1, ⟨h2, h3⟩, ⟨h4, h5⟩⟩
      exact ⟨⟨h1, h2, h4⟩, fun x hx => ⟨h3 x (f1.mem_iff.1 hx), h5 x (f1.mem_iff.1 hx)⟩⟩

end DTree
end Lambeq
