import Verif.Ccg.JsonTree

/-!
# CCG trees: JSON round trip and removal of trivial unary rules (C85)
-/

namespace Lambeq
open Json
set_option linter.unusedSimpArgs false
namespace CTree

/-! ## Specification -/

mutual
/-- ccg_tree.py:96-101: reading the text stores it, in the tree and in the children that have been asked for theirs. -/
def readText : CTree → CTree
  | node (some s) r ty h cs => node (some s) r ty h cs
  | node none r ty h cs => node (some (node none r ty h cs).text) r ty h (readTexts cs)
def readTexts : List CTree → List CTree
  | [] => []
  | c :: cs => c.readText :: readTexts cs
end

/-- `.text` is read at the end of a path of indices of children. -/
def readAt : List Nat → CTree → CTree
  | [], t => t.readText
  | i :: p, node tx r ty h cs => node tx r ty h (cs.modify i (readAt p))

/-- The trees a program can have: built by the constructor, with texts read at any time, and with trivial unary rules removed. -/
inductive Reach : CTree → Prop
  | built {tx r ty cs t} : (∀ c ∈ cs, Reach c) → CTree.mk tx r ty cs = .ok t → Reach t
  | read {t} (p : List Nat) : Reach t → Reach (readAt p t)
  | clean {t} : Reach t → Reach t.withoutTrivial

mutual
/-- the number of edges on the longest path to a leaf -/
def depth : CTree → Nat
  | node _ _ _ _ [] => 0
  | node _ _ _ _ (c :: cs) => 1 + max c.depth (depths cs)
def depths : List CTree → Nat
  | [] => 0
  | c :: cs => max c.depth (depths cs)
end

mutual
/-- all subtrees, in preorder -/
def subtrees : CTree → List CTree
  | node tx r ty h cs => node tx r ty h cs :: subtreess cs
def subtreess : List CTree → List CTree
  | [] => []
  | c :: cs => c.subtrees ++ subtreess cs
end

/-- rule, type, explicit text and number of children of a node -/
def label : CTree → Rule × Cat × Option String × Nat
  | node tx r ty _ cs => (r, ty, tx, cs.length)

/-- the words and types of the leaves, from left to right -/
def leafList (t : CTree) : List (String × Cat) := (t.subtrees.filter (fun s => s.children.isEmpty)).map (fun s => (s.text, s.ty))

/-- an explicit text of a tree with children is the text of the children -/
def Coherent (t : CTree) : Prop := ∀ s ∈ t.subtrees, s.children ≠ [] → s.text = " ".intercalate (s.children.map text)

/-! ## Basic facts -/

theorem texts_eq (cs : List CTree) : texts cs = cs.map text := by
  induction cs with
  | nil => rfl
  | cons c cs ih => simp [texts, ih]

theorem toJsons_eq (cs : List CTree) : toJsons cs = cs.map toJson := by
  induction cs with
  | nil => rfl
  | cons c cs ih => simp [toJsons, ih]

theorem readTexts_eq (cs : List CTree) : readTexts cs = cs.map readText := by
  induction cs with
  | nil => rfl
  | cons c cs ih => simp [readTexts, ih]

theorem withoutTrivials_eq (cs : List CTree) : withoutTrivials cs = cs.map withoutTrivial := by
  induction cs with
  | nil => rfl
  | cons c cs ih => simp [withoutTrivials, ih]

theorem subtreess_eq (cs : List CTree) : subtreess cs = cs.flatMap subtrees := by
  induction cs with
  | nil => rfl
  | cons c cs ih => simp [subtreess, ih]

theorem beqs_iff (cs ds : List CTree) (h : cs.length = ds.length) : beqs cs ds = true ↔ List.Forall₂ (fun a b => a.beq b = true) cs ds := by
  induction cs generalizing ds with
  | nil => cases ds with
    | nil => simp [beqs]
    | cons => simp at h
  | cons c cs ih => cases ds with
    | nil => simp at h
    | cons d ds => simp [beqs, ih ds (by simpa using h)]

/-- induction over trees -/
theorem ind {P : CTree → Prop} (H : ∀ tx r ty h cs, (∀ c ∈ cs, P c) → P (node tx r ty h cs)) : ∀ t, P t := by
  intro t
  refine CTree.rec (motive_1 := P) (motive_2 := fun cs => ∀ c ∈ cs, P c) ?_ ?_ ?_ t
  · exact fun tx r ty h cs ih => H tx r ty h cs ih
  · simp
  · intro c cs h1 h2 d hd
    rcases List.mem_cons.1 hd with rfl | hd
    · exact h1
    · exact h2 d hd

theorem beq_node (tx tx' r r' ty ty' h h' cs cs') : beq (node tx r ty h cs) (node tx' r' ty' h' cs') = true ↔
    (node tx r ty h cs).text = (node tx' r' ty' h' cs').text ∧ r = r' ∧ ty = ty' ∧ List.Forall₂ (fun a b => a.beq b = true) cs cs' := by
  rw [beq]
  simp only [Bool.and_eq_true, beq_iff_eq, decide_eq_true_eq]
  constructor
  · rintro ⟨⟨⟨⟨a, b⟩, c⟩, d⟩, e⟩
    exact ⟨a, b, c, (beqs_iff _ _ d).1 e⟩
  · rintro ⟨a, b, c, e⟩
    exact ⟨⟨⟨⟨a, b⟩, c⟩, e.length_eq⟩, (beqs_iff _ _ e.length_eq).2 e⟩

theorem beq_refl (t : CTree) : t.beq t = true := by
  refine ind (P := fun t => t.beq t = true) ?_ t
  intro tx r ty h cs ih
  rw [beq_node]
  exact ⟨rfl, rfl, rfl, List.forall₂_same.2 ih⟩

theorem beq_symm (t u : CTree) (h : t.beq u = true) : u.beq t = true := by
  induction t using ind generalizing u with
  | H tx r ty hh cs ih =>
    obtain ⟨tx', r', ty', h', cs'⟩ := u
    rw [beq_node] at h ⊢
    obtain ⟨a, b, c, d⟩ := h
    refine ⟨a.symm, b.symm, c.symm, ?_⟩
    clear a
    induction d with
    | nil => exact .nil
    | cons h1 _ ih2 => exact .cons (ih _ (by simp) _ h1) (ih2 (fun c hc => ih c (by simp [hc])))

theorem beq_trans (t u v : CTree) (h : t.beq u = true) (g : u.beq v = true) : t.beq v = true := by
  induction t using ind generalizing u v with
  | H tx r ty hh cs ih =>
    obtain ⟨tx', r', ty', h', cs'⟩ := u
    obtain ⟨tx2, r2, ty2, h2, cs2⟩ := v
    rw [beq_node] at h g ⊢
    obtain ⟨a, b, c, d⟩ := h
    obtain ⟨a', b', c', d'⟩ := g
    refine ⟨a.trans a', b.trans b', c.trans c', ?_⟩
    clear a a'
    induction d generalizing cs2 with
    | nil => cases d'; exact .nil
    | cons h1 _ ih2 => cases d' with
      | cons g1 g2 => exact .cons (ih _ (by simp) _ _ h1 g1) (ih2 (fun c hc => ih c (by simp [hc])) _ g2)

/-! ## Reading texts -/

theorem text_none (r ty h cs) : (node none r ty h cs).text = " ".intercalate (cs.map text) := by rw [text, texts_eq]
theorem text_some (s r ty h cs) : (node (some s) r ty h cs).text = s := by rw [text]

theorem readText_spec (t : CTree) : t.readText.text = t.text ∧ t.readText.beq t = true ∧ t.readText.toJson = t.toJson := by
  induction t using ind with
  | H tx r ty h cs ih =>
    cases tx with
    | some s => rw [readText]; exact ⟨rfl, beq_refl _, rfl⟩
    | none =>
      have ht : (cs.map readText).map text = cs.map text := by
        rw [List.map_map]; exact List.map_congr_left (fun c hc => (ih c hc).1)
      have hj : (cs.map readText).map toJson = cs.map toJson := by
        rw [List.map_map]; exact List.map_congr_left (fun c hc => (ih c hc).2.2)
      simp only [readText, readTexts_eq]
      refine ⟨by rw [text_some], ?_, ?_⟩
      · rw [beq_node]
        refine ⟨by rw [text_some], rfl, rfl, ?_⟩
        rw [List.forall₂_map_left_iff]
        exact List.forall₂_same.2 (fun c hc => (ih c hc).2.1)
      · simp only [toJson, text_some, texts_eq, toJsons_eq, ht, hj, ne_eq, List.map_eq_nil_iff]

theorem map_modify_same {α β : Type} (f : α → β) (g : α → α) (l : List α) (i : Nat) (h : ∀ a ∈ l, f (g a) = f a) : (l.modify i g).map f = l.map f := by
  induction l generalizing i with
  | nil => simp
  | cons a l ih =>
    cases i with
    | zero => simp [h a (by simp)]
    | succ i => simp [ih i (fun a ha => h a (by simp [ha]))]

theorem forall₂_modify {α : Type} (R : α → α → Prop) (g : α → α) (l : List α) (i : Nat) (h : ∀ a ∈ l, R (g a) a) (h0 : ∀ a ∈ l, R a a) :
    List.Forall₂ R (l.modify i g) l := by
  induction l generalizing i with
  | nil => simp
  | cons a l ih =>
    cases i with
    | zero => simp [h a (by simp)]; exact fun b hb => h0 b (List.mem_cons_of_mem _ hb)
    | succ i => simp [h0 a (by simp)]; exact ih i (fun a ha => h a (by simp [ha])) (fun a ha => h0 a (by simp [ha]))

/-- Reading a text anywhere in a tree changes neither its text nor its JSON, and the tree stays equal to itself. -/
theorem C85_read_invisible (p : List Nat) (t : CTree) : (readAt p t).text = t.text ∧ (readAt p t).beq t = true ∧ (readAt p t).toJson = t.toJson := by
  induction p generalizing t with
  | nil => simpa [readAt] using readText_spec t
  | cons i p ih =>
    obtain ⟨tx, r, ty, h, cs⟩ := t
    have ht : (cs.modify i (readAt p)).map text = cs.map text := map_modify_same _ _ _ _ (fun a _ => (ih a).1)
    have hj : (cs.modify i (readAt p)).map toJson = cs.map toJson := map_modify_same _ _ _ _ (fun a _ => (ih a).2.2)
    have htx : (node tx r ty h (cs.modify i (readAt p))).text = (node tx r ty h cs).text := by
      cases tx with
      | some s => rw [text_some, text_some]
      | none => rw [text_none, text_none, ht]
    simp only [readAt]
    refine ⟨htx, ?_, ?_⟩
    · rw [beq_node]
      exact ⟨htx, rfl, rfl, forall₂_modify _ _ _ _ (fun a _ => (ih a).2.1) (fun a _ => beq_refl a)⟩
    · have hn : (cs.modify i (readAt p) = []) ↔ cs = [] := by
        rw [← List.length_eq_zero_iff, List.length_modify, List.length_eq_zero_iff]
      simp only [toJson, htx, texts_eq, toJsons_eq, ht, hj, ne_eq, hn]

/-! ## The shape of reachable trees -/

/-- one node keeps to the rules of the constructor -/
def NodeOk : CTree → Prop
  | node tx r _ _ cs => (r ≠ .unknown → cs.length = required r) ∧ (cs = [] → truthy tx = true → r = .lexical)

def AllOk (t : CTree) : Prop := ∀ s ∈ t.subtrees, NodeOk s

theorem allOk_node (tx r ty h cs) : AllOk (node tx r ty h cs) ↔ NodeOk (node tx r ty h cs) ∧ ∀ c ∈ cs, AllOk c := by
  simp only [AllOk, subtrees, subtreess_eq, List.mem_cons, List.mem_flatMap]
  constructor
  · intro H
    exact ⟨H _ (.inl rfl), fun c hc s hs => H s (.inr ⟨c, hc, hs⟩)⟩
  · rintro ⟨h1, h2⟩ s (rfl | ⟨c, hc, hs⟩)
    · exact h1
    · exact h2 c hc s hs

theorem mk_ok {tx r ty cs t} (h : CTree.mk tx r ty cs = .ok t) : (r ≠ .unknown → cs.length = required r) ∧
    t = node tx (if truthy tx && cs.isEmpty then .lexical else r) ty (heightOf cs) cs := by
  unfold CTree.mk at h
  split at h
  · simp at h
  · rename_i hc
    simp only [Except.ok.injEq] at h
    exact ⟨fun hr => by_contra fun hl => hc ⟨hr, hl⟩, h.symm⟩

theorem mk_nodeOk {tx r ty cs t} (h : CTree.mk tx r ty cs = .ok t) : NodeOk t := by
  obtain ⟨h1, rfl⟩ := mk_ok h
  constructor
  · intro hr
    split at hr
    · rename_i hc; simp at hc; simp [hc, required]
    · rename_i hc; simp only [hc]; exact h1 hr
  · rintro rfl ht; simp [ht]

theorem readText_ok (t : CTree) (h : AllOk t) : AllOk t.readText := by
  induction t using ind with
  | H tx r ty hh cs ih =>
    cases tx with
    | some s => simpa only [readText] using h
    | none =>
      rw [allOk_node] at h
      simp only [readText, readTexts_eq, allOk_node]
      refine ⟨⟨fun hr => by simpa using h.1.1 hr, ?_⟩, ?_⟩
      · intro hc ht
        simp only [List.map_eq_nil_iff] at hc
        subst hc
        simp [text_none, truthy] at ht
      · intro c hc
        obtain ⟨d, hd, rfl⟩ := List.mem_map.1 hc
        exact ih d hd (h.2 d hd)

theorem mem_modify {α : Type} (g : α → α) (l : List α) (i : Nat) (x : α) (h : x ∈ l.modify i g) : x ∈ l ∨ ∃ a ∈ l, x = g a := by
  induction l generalizing i with
  | nil => simp at h
  | cons a l ih =>
    cases i with
    | zero => simp at h; rcases h with rfl | h
              · exact .inr ⟨a, by simp, rfl⟩
              · simp [h]
    | succ i =>
      simp at h
      rcases h with rfl | h
      · simp
      · rcases ih i h with h | ⟨b, hb, rfl⟩
        · simp [h]
        · exact .inr ⟨b, by simp [hb], rfl⟩

theorem readAt_ok (p : List Nat) (t : CTree) (h : AllOk t) : AllOk (readAt p t) := by
  induction p generalizing t with
  | nil => simpa [readAt] using readText_ok t h
  | cons i p ih =>
    obtain ⟨tx, r, ty, hh, cs⟩ := t
    rw [allOk_node] at h
    simp only [readAt, allOk_node]
    refine ⟨⟨fun hr => by simpa using h.1.1 hr, fun hc ht => h.1.2 ?_ ht⟩, ?_⟩
    · rw [← List.length_eq_zero_iff, List.length_modify, List.length_eq_zero_iff] at hc; exact hc
    · intro c hc
      rcases mem_modify _ _ _ _ hc with hc | ⟨a, ha, rfl⟩
      · exact h.2 c hc
      · exact ih a (h.2 a ha)

theorem withoutTrivial_node (tx r ty h cs) : (node tx r ty h cs).withoutTrivial = (node tx r ty h (cs.map withoutTrivial)) ∨
    ∃ c, cs = [c] ∧ r = .unary ∧ ty = c.ty ∧ (node tx r ty h cs).withoutTrivial = c.withoutTrivial := by
  match cs with
  | [] => left; simp [withoutTrivial, withoutTrivials]
  | [c] =>
    simp only [withoutTrivial]
    split
    · rename_i hc
      simp at hc
      exact .inr ⟨c, rfl, hc.1, hc.2, rfl⟩
    · left; simp
  | c :: d :: cs => left; simp [withoutTrivial, withoutTrivials_eq, withoutTrivials]

theorem withoutTrivial_ok (t : CTree) (h : AllOk t) : AllOk t.withoutTrivial := by
  induction t using ind with
  | H tx r ty hh cs ih =>
    rw [allOk_node] at h
    rcases withoutTrivial_node tx r ty hh cs with e | ⟨c, rfl, _, _, e⟩
    · rw [e, allOk_node]
      refine ⟨⟨fun hr => by simpa using h.1.1 hr, fun hc ht => h.1.2 (by simpa using hc) ht⟩, ?_⟩
      intro c hc
      obtain ⟨d, hd, rfl⟩ := List.mem_map.1 hc
      exact ih d hd (h.2 d hd)
    · rw [e]; exact ih c (by simp) (h.2 c (by simp))

theorem Reach.ok {t : CTree} (h : Reach t) : AllOk t := by
  induction h with
  | @built tx r ty cs t _ hm ih =>
    have h1 := mk_nodeOk hm
    obtain ⟨_, rfl⟩ := mk_ok hm
    rw [allOk_node]
    exact ⟨h1, ih⟩
  | read p _ ih => exact readAt_ok p _ ih
  | clean _ ih => exact withoutTrivial_ok _ ih

theorem self_mem_subtrees (t : CTree) : t ∈ t.subtrees := by cases t; simp [subtrees]

/-- Whatever is done with a tree, every subtree has as many children as its rule needs, and a node with a text but without children is a word. -/
theorem C85_children (t : CTree) (h : Reach t) (s : CTree) (hs : s ∈ t.subtrees) :
    (s.rule ≠ .unknown → s.children.length = required s.rule) ∧ (s.children = [] → s.text ≠ "" → s.rule = .lexical) := by
  have := h.ok s hs
  obtain ⟨tx, r, ty, hh, cs⟩ := s
  refine ⟨this.1, ?_⟩
  rintro hc ht
  simp only [children] at hc
  subst hc
  refine this.2 rfl ?_
  cases tx with
  | none => exact absurd (by simp [text_none]) ht
  | some s => simpa [truthy, text_some] using ht

end CTree
end Lambeq
