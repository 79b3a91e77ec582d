import Verif.Ccg.JsonTreeProps

/-!
# CCG trees: the theorems (C85)
-/

namespace Lambeq
open Json
set_option linter.unusedSimpArgs false
namespace CTree

/-! ## JSON -/

theorem ofValue_value (r : Rule) : Rule.ofValue r.value = r := by cases r <;> decide +kernel

theorem depths_le (cs : List CTree) (c : CTree) (h : c ∈ cs) : c.depth ≤ depths cs := by
  induction cs with
  | nil => simp at h
  | cons d cs ih =>
    rw [depths]
    rcases List.mem_cons.1 h with rfl | h
    · omega
    · have := ih h; omega

theorem depth_child (tx r ty h cs) (c : CTree) (hc : c ∈ cs) : c.depth < (node tx r ty h cs).depth := by
  cases cs with
  | nil => simp at hc
  | cons d cs =>
    rw [depth]
    rcases List.mem_cons.1 hc with rfl | hc
    · omega
    · have := depths_le cs c hc; omega

theorem mapM_fromJson (n : Nat) (R : CTree → CTree → Prop) (cs : List CTree)
    (h : ∀ c ∈ cs, ∃ c', fromJson n c.toJson = .ok (some c') ∧ R c' c) :
    ∃ cs', (cs.map toJson).mapM (fromJson n) = .ok (cs'.map some) ∧ List.Forall₂ R cs' cs := by
  induction cs with
  | nil => exact ⟨[], rfl, .nil⟩
  | cons c cs ih =>
    obtain ⟨c', h1, h2⟩ := h c (by simp)
    obtain ⟨cs', h3, h4⟩ := ih (fun c hc => h c (by simp [hc]))
    refine ⟨c' :: cs', ?_, .cons h2 h4⟩
    rw [List.map_cons, List.mapM_cons, h1, h3]
    rfl

theorem mapM_some (cs : List CTree) : (cs.map some).mapM _root_.id = some cs := by
  induction cs with
  | nil => rfl
  | cons c cs ih => rw [List.map_cons, List.mapM_cons, ih]; rfl

/-- the fields of the JSON object of a tree -/
theorem toJson_fields (tx r ty h cs) : ∃ fs, (node tx r ty h cs).toJson = obj fs ∧
    getType fs = Cat.parse _root_.id ty.toStr ∧ getRule fs = r ∧ getChildren fs = .ok (cs.map toJson) ∧
    getText fs = .ok (if (node tx r ty h cs).text ≠ " ".intercalate (cs.map text) then some (node tx r ty h cs).text else none) := by
  refine ⟨_, by rw [toJson], ?_⟩
  rw [texts_eq, toJsons_eq]
  generalize (node tx r ty h cs).text = T
  generalize " ".intercalate (cs.map text) = J
  by_cases h2 : T = J
  · cases cs <;> cases r <;> simp [h2, getType, getRule, getChildren, getText, List.lookup, ofValue_value]
  · cases cs <;> cases r <;> simp [h2, getType, getRule, getChildren, getText, List.lookup, ofValue_value]

/-- the types of all subtrees can be printed and read again (C27) -/
def AllPrintable (t : CTree) : Prop := ∀ s ∈ t.subtrees, s.ty.Printable

theorem allPrintable_node (tx r ty h cs) : AllPrintable (node tx r ty h cs) ↔ ty.Printable ∧ ∀ c ∈ cs, AllPrintable c := by
  simp only [AllPrintable, subtrees, subtreess_eq, List.mem_cons, List.mem_flatMap]
  constructor
  · intro H
    exact ⟨H _ (.inl rfl), fun c hc s hs => H s (.inr ⟨c, hc, hs⟩)⟩
  · rintro ⟨h1, h2⟩ s (rfl | ⟨c, hc, hs⟩)
    · exact h1
    · exact h2 c hc s hs

theorem foldl_max (l : List Nat) (a : Nat) : l.foldl max a = max a (l.foldr max 0) := by
  induction l generalizing a with
  | nil => simp
  | cons b l ih => rw [List.foldl_cons, List.foldr_cons, ih]; omega

theorem depths_eq (cs : List CTree) : depths cs = (cs.map depth).foldr max 0 := by
  induction cs with
  | nil => rfl
  | cons c cs ih => simp [depths, ih]

theorem heightOf_depth (tx r ty h cs) (H : ∀ c ∈ cs, c.height = c.depth) : heightOf cs = (node tx r ty h cs).depth := by
  cases cs with
  | nil => rfl
  | cons c cs =>
    have h2 : cs.map height = cs.map depth := List.map_congr_left (fun d hd => H d (by simp [hd]))
    rw [heightOf, depth, foldl_max, h2, H c (by simp), depths_eq]

theorem roundtrip (t : CTree) (ho : AllOk t) (hp : AllPrintable t) (n : Nat) (hn : t.depth < n) :
    ∃ t', fromJson n t.toJson = .ok (some t') ∧ t'.beq t = true ∧ t'.depth = t.depth ∧ t'.height = t'.depth := by
  induction t using ind generalizing n with
  | H tx r ty h cs ih =>
    obtain ⟨n, rfl⟩ : ∃ m, n = m + 1 := ⟨n - 1, by omega⟩
    obtain ⟨hok, hoc⟩ := (allOk_node ..).1 ho
    obtain ⟨hpt, hpc⟩ := (allPrintable_node ..).1 hp
    obtain ⟨fs, e, e1, e2, e3, e4⟩ := toJson_fields tx r ty h cs
    obtain ⟨cs', hm, hf⟩ := mapM_fromJson n (fun c' c => c'.beq c = true ∧ c'.depth = c.depth ∧ c'.height = c'.depth) cs (fun c hc => by
      obtain ⟨c', a, b, d, g⟩ := ih c hc (hoc c hc) (hpc c hc) n (by have := depth_child tx r ty h cs c hc; omega)
      exact ⟨c', a, b, d, g⟩)
    have hlen : cs'.length = cs.length := hf.length_eq
    have htx : cs'.map text = cs.map text := by
      clear hm ih hoc hpc e3 e4 e ho hp hok hlen hn
      induction hf with
      | nil => rfl
      | @cons a b _ _ h1 _ ih2 =>
        obtain ⟨⟩ := a
        obtain ⟨⟩ := b
        have := ((beq_node ..).1 h1.1).1
        simp [this, ih2]
    have hnil : cs' = [] ↔ cs = [] := by rw [← List.length_eq_zero_iff, hlen, List.length_eq_zero_iff]
    have hdep : cs'.map depth = cs.map depth := by
      clear hm ih hoc hpc e3 e4 e ho hp hok hlen hn htx hnil
      induction hf with
      | nil => rfl
      | cons h1 _ ih2 => simp [h1.2.1, ih2]
    have hh : ∀ c ∈ cs', c.height = c.depth := by
      clear hm ih hoc hpc e3 e4 e ho hp hok hlen hn htx hnil hdep
      induction hf with
      | nil => simp
      | cons h1 _ ih2 => simp [h1.2.2]; exact ih2
    set T := (node tx r ty h cs).text with hT
    set J := " ".intercalate (cs.map text) with hJ
    have hmk : CTree.mk (if T ≠ J then some T else none) r ty cs' = .ok (node (if T ≠ J then some T else none) r ty (heightOf cs') cs') := by
      unfold CTree.mk
      rw [if_neg (by rintro ⟨a, b⟩; exact b (hlen.trans (hok.1 a)))]
      have hr : (if truthy (if T ≠ J then some T else none) && cs'.isEmpty then Rule.lexical else r) = r := by
        by_cases hc : (truthy (if T ≠ J then some T else none) && cs'.isEmpty) = true
        · rw [if_pos hc]
          simp only [Bool.and_eq_true, List.isEmpty_iff, hnil] at hc
          obtain ⟨hc, rfl⟩ := hc
          refine (hok.2 rfl ?_).symm
          cases tx with
          | none => simp [hT, hJ, text_none, truthy] at hc
          | some s =>
            rw [text_some] at hT
            rw [hT] at hc
            split at hc
            · exact hc
            · simp [truthy] at hc
        · rw [if_neg hc]
      rw [hr]
    refine ⟨node (if T ≠ J then some T else none) r ty (heightOf cs') cs', ?_, ?_, ?_, ?_⟩
    · rw [e, fromJson, e4]
      simp only [e1, Cat.C27_roundtrip ty hpt, e3, hm, mkOpt, mapM_some, e2, hmk]
    · rw [beq_node]
      refine ⟨?_, rfl, rfl, hf.imp (fun _ _ h => h.1)⟩
      by_cases hc : T = J
      · rw [if_neg (by simpa using hc), text_none, htx, ← hJ, ← hc]
      · rw [if_pos hc, text_some]
    · cases cs' with
      | nil => have := hnil.1 rfl; subst this; rfl
      | cons c' cs' => cases cs with
        | nil => simp at hlen
        | cons c cs => simp only [List.map_cons, List.cons.injEq] at hdep; simp [depth, depths_eq, hdep.1, hdep.2]
    · exact heightOf_depth _ r ty _ cs' hh

/-- **C85**: `from_json(to_json(tree)) == tree`, for every tree a program can have whose types can be printed, if the interpreter can recurse as deep as the
tree. The height of the new tree is right even if that of the old one is not. -/
theorem C85_roundtrip (t : CTree) (h : Reach t) (hp : AllPrintable t) (n : Nat) (hn : t.depth < n) :
    ∃ t', fromJson n t.toJson = .ok (some t') ∧ t'.beq t = true ∧ t'.height = t.depth := by
  obtain ⟨t', a, b, c, d⟩ := roundtrip t h.ok hp n hn
  exact ⟨t', a, b, d.trans c⟩

theorem toJson_of_beq (t u : CTree) (h : t.beq u = true) : t.toJson = u.toJson := by
  induction t using ind generalizing u with
  | H tx r ty hh cs ih =>
    obtain ⟨tx', r', ty', h', cs'⟩ := u
    obtain ⟨a, rfl, rfl, d⟩ := (beq_node ..).1 h
    have hj : cs.map toJson = cs'.map toJson := by
      clear a h
      induction d with
      | nil => rfl
      | cons h1 _ ih2 => simp only [List.map_cons]; rw [ih _ (by simp) _ h1, ih2 (fun c hc => ih c (by simp [hc]))]
    have ht : cs.map text = cs'.map text := by
      clear a h hj ih
      induction d with
      | nil => rfl
      | @cons a b _ _ h1 _ ih2 =>
        obtain ⟨⟩ := a
        obtain ⟨⟩ := b
        have := ((beq_node ..).1 h1).1
        simp [this, ih2]
    have hn : cs = [] ↔ cs' = [] := by rw [← List.length_eq_zero_iff, d.length_eq, List.length_eq_zero_iff]
    simp only [toJson, a, texts_eq, toJsons_eq, ht, hj, ne_eq, hn]

/-- **C85**: two trees are equal if and only if their JSON is the same. -/
theorem C85_eq_iff_json (t u : CTree) (h : Reach t) (hp : AllPrintable t) (g : Reach u) (gp : AllPrintable u) :
    t.beq u = true ↔ t.toJson = u.toJson := by
  refine ⟨toJson_of_beq t u, fun e => ?_⟩
  obtain ⟨t', a, b, _⟩ := C85_roundtrip t h hp (t.depth + u.depth + 1) (by omega)
  obtain ⟨u', a', b', _⟩ := C85_roundtrip u g gp (t.depth + u.depth + 1) (by omega)
  rw [e, a'] at a
  simp only [Except.ok.injEq, Option.some.injEq] at a
  subst a
  exact beq_trans _ _ _ (beq_symm _ _ b) b'

/-- **C85**: `==` is an equivalence. -/
theorem C85_eq_equivalence : (∀ t : CTree, t.beq t = true) ∧ (∀ t u : CTree, t.beq u = true → u.beq t = true) ∧
    (∀ t u v : CTree, t.beq u = true → u.beq v = true → t.beq v = true) := ⟨beq_refl, beq_symm, beq_trans⟩

/-- the trees the constructor builds -/
inductive Fresh : CTree → Prop
  | built {tx r ty cs t} : (∀ c ∈ cs, Fresh c) → CTree.mk tx r ty cs = .ok t → Fresh t

theorem Fresh.reach {t : CTree} (h : Fresh t) : Reach t := by
  induction h with
  | built _ hm ih => exact .built ih hm

/-- **C85**: the height of a tree made by the constructor is the length of its longest branch. -/
theorem C85_height (t : CTree) (h : Fresh t) : t.height = t.depth := by
  induction h with
  | @built tx r ty cs t _ hm ih =>
    obtain ⟨_, rfl⟩ := mk_ok hm
    exact heightOf_depth _ _ _ _ cs ih

theorem mapM_mem {α β : Type} (f : α → Except PyErr β) (l : List α) (r : List β) (h : l.mapM f = .ok r) : ∀ b ∈ r, ∃ a ∈ l, f a = .ok b := by
  induction l generalizing r with
  | nil => cases h; simp
  | cons a l ih =>
    rw [List.mapM_cons] at h
    cases e : f a with
    | error x => rw [e] at h; cases h
    | ok b =>
      cases e2 : l.mapM f with
      | error x => rw [e, e2] at h; cases h
      | ok bs =>
        rw [e, e2] at h
        cases h
        intro c hc
        rcases List.mem_cons.1 hc with rfl | hc
        · exact ⟨a, by simp, e⟩
        · obtain ⟨x, hx, hx2⟩ := ih bs e2 c hc
          exact ⟨x, by simp [hx], hx2⟩

theorem mapM_id_some (l : List (Option CTree)) (cs : List CTree) (h : l.mapM _root_.id = some cs) : l = cs.map some := by
  induction l generalizing cs with
  | nil => cases h; rfl
  | cons a l ih =>
    rw [List.mapM_cons] at h
    cases a with
    | none => cases h
    | some c =>
      cases e2 : l.mapM _root_.id with
      | none => rw [e2] at h; cases h
      | some bs => rw [e2] at h; cases h; rw [ih bs e2]; rfl

/-- **C85**: whatever JSON it is given, `from_json` returns nothing but trees that the constructor accepts. -/
theorem C85_from_json_fresh (n : Nat) (j : Json) (t : CTree) (h : fromJson n j = .ok (some t)) : Fresh t := by
  induction n generalizing j t with
  | zero => cases j <;> simp [fromJson] at h
  | succ n ih =>
    cases j with
    | obj fs =>
      rw [fromJson] at h
      split at h
      · cases h
      split at h
      · cases h
      split at h
      · cases h
      split at h
      · cases h
      rename_i cs hcs
      split at h
      · cases h
      rename_i t' ht'
      simp only [Except.ok.injEq, Option.some.injEq] at h
      subst h
      unfold mkOpt at ht'
      split at ht'
      · rename_i ds hds
        refine .built (fun c hc => ?_) ht'
        have := mapM_id_some _ _ hds
        subst this
        obtain ⟨a, ha, hb⟩ := mapM_mem _ _ _ hcs (some c) (List.mem_map.2 ⟨c, hc, rfl⟩)
        exact ih a c hb
      · split at ht' <;> cases ht'
    | _ => simp [fromJson] at h

/-! ## Trivial unary rules -/

theorem ty_withoutTrivial (t : CTree) : t.withoutTrivial.ty = t.ty := by
  induction t using ind with
  | H tx r ty h cs ih =>
    rcases withoutTrivial_node tx r ty h cs with e | ⟨c, rfl, _, e2, e⟩
    · rw [e]; rfl
    · rw [e, ih c (by simp), ← e2]; rfl

theorem trivial_node (tx r ty h cs) : trivial (node tx r ty h cs) = true ↔ r = .unary ∧ ∃ c, cs = [c] ∧ ty = c.ty := by
  match cs with
  | [] => simp [trivial]
  | [c] => simp [trivial]
  | _ :: _ :: _ => simp [trivial]

theorem withoutTrivial_of_trivial (tx r ty h) (c : CTree) (ht : trivial (node tx r ty h [c]) = true) : (node tx r ty h [c]).withoutTrivial = c.withoutTrivial := by
  rw [withoutTrivial]
  exact if_pos ht

theorem withoutTrivial_of_not (tx r ty h cs) (ht : trivial (node tx r ty h cs) = false) :
    (node tx r ty h cs).withoutTrivial = node tx r ty h (cs.map withoutTrivial) := by
  rcases withoutTrivial_node tx r ty h cs with e | ⟨c, rfl, e1, e2, _⟩
  · exact e
  · exact absurd ((trivial_node tx r ty h [c]).2 ⟨e1, c, rfl, e2⟩) (by simp [ht])

/-- **C85**: `without_trivial_unary_rules` takes away exactly the unary rules that map a type to itself: the nodes of the new tree, in preorder, are the
other nodes of the old tree, each with its rule, its type, its explicit text and its number of children. -/
theorem C85_without_trivial (t : CTree) :
    t.withoutTrivial.subtrees.map label = (t.subtrees.filter (fun s => !s.trivial)).map label ∧ t.withoutTrivial.ty = t.ty := by
  refine ⟨?_, ty_withoutTrivial t⟩
  induction t using ind with
  | H tx r ty h cs ih =>
    cases ht : trivial (node tx r ty h cs) with
    | true =>
      obtain ⟨_, c, rfl, _⟩ := (trivial_node ..).1 ht
      rw [withoutTrivial_of_trivial _ _ _ _ _ ht, ih c (by simp)]
      simp [subtrees, subtreess_eq, ht]
    | false =>
      rw [withoutTrivial_of_not _ _ _ _ _ ht]
      simp only [subtrees, subtreess_eq, List.map_cons, List.filter_cons, ht, Bool.not_false, if_true, label, List.length_map]
      congr 1
      clear ht
      induction cs with
      | nil => rfl
      | cons c cs ih2 =>
        simp only [List.map_cons, List.flatMap_cons, List.map_append, List.filter_append]
        rw [ih c (by simp), ih2 (fun c hc => ih c (by simp [hc]))]

/-- **C85**: no unary rule that maps a type to itself is left. -/
theorem C85_no_trivial_left (t : CTree) : ∀ s ∈ t.withoutTrivial.subtrees, s.trivial = false := by
  induction t using ind with
  | H tx r ty h cs ih =>
    cases ht : trivial (node tx r ty h cs) with
    | true =>
      obtain ⟨_, c, rfl, _⟩ := (trivial_node ..).1 ht
      rw [withoutTrivial_of_trivial _ _ _ _ _ ht]
      exact ih c (by simp)
    | false =>
      rw [withoutTrivial_of_not _ _ _ _ _ ht]
      intro s hs
      simp only [subtrees, subtreess_eq, List.mem_cons, List.mem_flatMap, List.mem_map] at hs
      rcases hs with rfl | ⟨c', ⟨c, hc, rfl⟩, hs⟩
      · rw [Bool.eq_false_iff, ne_eq, trivial_node]
        rintro ⟨h1, c, h2, h3⟩
        match cs, h2 with
        | [d], h2 =>
          simp only [List.map_cons, List.map_nil, List.cons.injEq, and_true] at h2
          refine absurd ((trivial_node ..).2 ⟨h1, d, rfl, ?_⟩) (by rw [ht]; simp)
          rw [h3, ← h2, ty_withoutTrivial]
      · exact ih c hc s hs

theorem withoutTrivial_fixed (t : CTree) (H : ∀ s ∈ t.subtrees, s.trivial = false) : t.withoutTrivial = t := by
  induction t using ind with
  | H tx r ty h cs ih =>
    rw [withoutTrivial_of_not _ _ _ _ _ (H _ (self_mem_subtrees _))]
    have : cs.map withoutTrivial = cs.map _root_.id := List.map_congr_left (fun c hc => ih c hc (fun s hs => H s (by
      simp only [subtrees, subtreess_eq, List.mem_cons, List.mem_flatMap]
      exact .inr ⟨c, hc, hs⟩)))
    rw [this, List.map_id]

/-- **C85**: doing it twice is doing it once. -/
theorem C85_without_trivial_idempotent (t : CTree) : t.withoutTrivial.withoutTrivial = t.withoutTrivial :=
  withoutTrivial_fixed _ (C85_no_trivial_left t)

theorem text_leaf (tx r ty h) : (node tx r ty h []).text = tx.getD "" := by
  cases tx with
  | none => simp [text_none]
  | some s => rw [text_some]; rfl

/-- the leaves can be read off the labels -/
theorem leafList_eq (t : CTree) : t.leafList = ((t.subtrees.map label).filter (fun l => l.2.2.2 == 0)).map (fun l => (l.2.2.1.getD "", l.2.1)) := by
  unfold leafList
  generalize t.subtrees = l
  induction l with
  | nil => rfl
  | cons s l ih =>
    obtain ⟨tx, r, ty, h, cs⟩ := s
    cases cs with
    | nil => simpa [children, label, text_leaf, CTree.ty] using ih
    | cons c cs => simpa [children, label] using ih

/-- **C85**: the words and their types stay as they are. -/
theorem C85_without_trivial_words (t : CTree) : t.withoutTrivial.leafList = t.leafList := by
  rw [leafList_eq, leafList_eq, (C85_without_trivial t).1]
  generalize t.subtrees = l
  induction l with
  | nil => rfl
  | cons s l ih =>
    obtain ⟨tx, r, ty, h, cs⟩ := s
    cases ht : trivial (node tx r ty h cs) with
    | true =>
      obtain ⟨_, c, rfl, _⟩ := (trivial_node ..).1 ht
      simpa [ht, label] using ih
    | false =>
      simp only [List.filter_cons, ht, Bool.not_false, if_true, List.map_cons]
      split
      · simp only [List.map_cons, ih]
      · exact ih

theorem coherent_node (tx r ty h cs) : Coherent (node tx r ty h cs) ↔
    (cs ≠ [] → (node tx r ty h cs).text = " ".intercalate (cs.map text)) ∧ ∀ c ∈ cs, Coherent c := by
  simp only [Coherent, subtrees, subtreess_eq, List.mem_cons, List.mem_flatMap]
  constructor
  · intro H
    exact ⟨H _ (.inl rfl), fun c hc s hs => H s (.inr ⟨c, hc, hs⟩)⟩
  · rintro ⟨h1, h2⟩ s (rfl | ⟨c, hc, hs⟩)
    · exact h1
    · exact h2 c hc s hs

/-- **C85** (partial: for trees in which no explicit text contradicts the words): the text stays as it is, whether or not it has been read before. -/
theorem C85_without_trivial_text_partial (t : CTree) (h : Coherent t) : t.withoutTrivial.text = t.text := by
  induction t using ind with
  | H tx r ty hh cs ih =>
    obtain ⟨h1, h2⟩ := (coherent_node ..).1 h
    cases ht : trivial (node tx r ty hh cs) with
    | true =>
      obtain ⟨_, c, rfl, _⟩ := (trivial_node ..).1 ht
      rw [withoutTrivial_of_trivial _ _ _ _ _ ht, ih c (by simp) (h2 c (by simp)), h1 (by simp)]
      simp
    | false =>
      rw [withoutTrivial_of_not _ _ _ _ _ ht]
      cases tx with
      | some s => rw [text_some, text_some]
      | none =>
        rw [text_none, text_none, List.map_map]
        congr 1
        exact List.map_congr_left (fun c hc => ih c hc (h2 c hc))

/-! ## Refuted, and examples -/

/-- `John`, with a unary rule from `n` to `n` above it that has an explicit text -/
def exWord : CTree := node (some "John") .lexical (.atom "n") 0 []
def exUnary : CTree := node (some "Mr John") .unary (.atom "n") 1 [exWord]
def exRoot : CTree := node none .ftr (.over (.atom "s") (.under (.atom "s") (.atom "n"))) 2 [exUnary]

theorem exRoot_fresh : Fresh exRoot :=
  .built (tx := none) (r := .ftr) (ty := .over (.atom "s") (.under (.atom "s") (.atom "n"))) (cs := [exUnary]) (by
    simp only [List.mem_singleton, forall_eq]
    refine .built (tx := some "Mr John") (r := .unary) (ty := .atom "n") (cs := [exWord]) (by
      simp only [List.mem_singleton, forall_eq]
      exact .built (tx := some "John") (r := .unknown) (ty := .atom "n") (cs := []) (by simp) rfl) rfl) rfl

/-- **C85 refuted**: the height of the result is not the height of the new tree (it is still that of the old tree), so that it changes by a round trip
through JSON. -/
theorem C85_refuted_height : ∃ t, Fresh t ∧ t.withoutTrivial.height ≠ t.withoutTrivial.depth :=
  ⟨exRoot, exRoot_fresh, by decide +kernel⟩

/-- **C85 refuted**: an explicit text of a tree whose rule is removed is lost; and whether the text of the whole tree changes depends on whether it has been
read before. -/
theorem C85_refuted_text : ∃ t, Fresh t ∧ t.withoutTrivial.text ≠ t.text ∧ (readAt [] t).withoutTrivial.text = t.text :=
  ⟨exRoot, exRoot_fresh, by decide +kernel⟩

/-- **C85 refuted**: the documentation says that `children` can be `None`; the constructor accepts this, `from_json` does not. -/
theorem C85_refuted_null_children (n : Nat) :
    fromJson (n + 1) (obj [("text", str "John"), ("type", str "n"), ("children", null)]) = .error .typeError ∧
    ∃ t, fromJson (n + 1) (obj [("text", str "John"), ("type", str "n")]) = .ok (some t) := by
  have h : Cat.parse _root_.id ['n'] = .ok (.atom "n") := by decide +kernel
  refine ⟨?_, node (some "John") .lexical (.atom "n") 0 [], ?_⟩ <;>
    simp [fromJson, getText, getType, getChildren, getRule, List.lookup, h, mkOpt, CTree.mk, truthy, heightOf, pure, Except.pure]

theorem exRoot_printable : AllPrintable exRoot := by
  intro s hs
  simp only [exRoot, exUnary, exWord, subtrees, subtreess_eq, List.flatMap_cons, List.flatMap_nil, List.append_nil, List.mem_cons, List.not_mem_nil, or_false] at hs
  rcases hs with rfl | rfl | rfl <;> simp only [CTree.ty, Cat.Printable, Cat.AtomChars] <;> decide +kernel

-- C85_roundtrip, C85_eq_iff_json
example : Reach exRoot.withoutTrivial ∧ AllPrintable exRoot ∧ exRoot.depth < 3 :=
  ⟨.clean exRoot_fresh.reach, exRoot_printable, by decide +kernel⟩

-- C85_without_trivial_text_partial
example : Coherent (node none .unary (.atom "n") 1 [exWord]) := by
  intro s hs
  simp only [exWord, subtrees, subtreess_eq, List.flatMap_cons, List.flatMap_nil, List.append_nil, List.mem_cons, List.not_mem_nil, or_false] at hs
  rcases hs with rfl | rfl <;> simp [children, text_none, text_some]

/-- **C85 (what the constructor accepts).** It accepts any number of children for the unknown rule, none for a word, one for a unary rule and for type raising,
two for every other rule; in all other cases it raises `ValueError`. What it returns has the given type and children, and the given rule unless there is a
non-empty text and no child: then it is a word. -/
theorem C85_constructor (tx : Option String) (r : Rule) (ty : Cat) (cs : List CTree) :
    (if r = .unknown ∨ (r = .lexical ∧ cs.length = 0) ∨ ((r = .unary ∨ r = .ftr ∨ r = .btr) ∧ cs.length = 1) ∨
        (r ≠ .lexical ∧ r ≠ .unary ∧ r ≠ .ftr ∧ r ≠ .btr ∧ cs.length = 2)
      then ∃ t, CTree.mk tx r ty cs = .ok t ∧ t.ty = ty ∧ t.children = cs ∧
        t.rule = (if cs = [] ∧ (∃ s, tx = some s ∧ s ≠ "") then .lexical else r) ∧
        t.text = (match tx with | some s => s | none => " ".intercalate (cs.map text))
      else CTree.mk tx r ty cs = .error .valueError) := by
  have key : (r ≠ .unknown ∧ cs.length ≠ required r) ↔ ¬ (r = .unknown ∨ (r = .lexical ∧ cs.length = 0) ∨
      ((r = .unary ∨ r = .ftr ∨ r = .btr) ∧ cs.length = 1) ∨ (r ≠ .lexical ∧ r ≠ .unary ∧ r ≠ .ftr ∧ r ≠ .btr ∧ cs.length = 2)) := by
    cases r <;> simp [required]
  split
  · rename_i h
    have h' : ¬ (r ≠ .unknown ∧ cs.length ≠ required r) := fun hh => key.1 hh h
    refine ⟨_, by rw [CTree.mk, if_neg h'], rfl, rfl, ?_, ?_⟩
    · simp only [rule]
      congr 1
      rcases tx with _ | s
      · simp [truthy]
      · simp [truthy, and_comm]
    · cases tx with
      | none => rw [text, texts_eq]
      | some s => rw [text]
  · rename_i h
    rw [CTree.mk, if_pos (key.2 h)]

/-- **C85 (JSON that is refused).** `None` gives `None`; an object without a type raises `KeyError`; anything that is not an object raises `AttributeError`. -/
theorem C85_from_json_errors (n : Nat) (j : Json) :
    fromJson (n + 1) null = .ok none ∧
    (∀ fs, j = obj fs → fs.lookup "type" = none → (∀ v, fs.lookup "text" = some v → v = null ∨ ∃ s, v = str s) → fromJson (n + 1) j = .error .keyError) ∧
    (j ≠ null → (∀ fs, j ≠ obj fs) → fromJson (n + 1) j = .error .attributeError) := by
  refine ⟨by rw [fromJson], ?_, ?_⟩
  · rintro fs rfl h1 h2
    obtain ⟨tx, htx⟩ : ∃ tx, getText fs = .ok tx := by
      unfold getText
      rcases h : fs.lookup "text" with _ | v
      · exact ⟨_, rfl⟩
      · rcases h2 v h with rfl | ⟨s, rfl⟩
        · exact ⟨_, rfl⟩
        · exact ⟨_, rfl⟩
    simp only [fromJson, htx, getType, h1]
  · intro h1 h2
    cases j with
    | null => exact absurd rfl h1
    | obj fs => exact absurd rfl (h2 fs)
    | _ => rfl

example : ([("text", Json.str "John")] : List (String × Json)).lookup "type" = none := rfl

end CTree
end Lambeq
