import Verif.Ccg.DerivTheorems
import Verif.Ccg.JsonTreeProps

/-! # Printed derivations: what holds of all trees (C109) -/

namespace Lambeq
namespace Deriv

theorem horizs_iff (K : CharSet) (sp : Nat) (str : Cat → List Char) (cs : List CTree) :
    (∃ ds, horizs K sp str cs = .ok ds) ↔ ∀ c ∈ cs, ∃ P, horiz K sp str c = .ok P := by
  induction cs with
  | nil => simp [horizs]
  | cons c cs ih =>
    rw [horizs]
    cases hc : horiz K sp str c with
    | error e => simp [hc]
    | ok d =>
      cases hs : horizs K sp str cs with
      | error e =>
        rw [hs] at ih
        simp only [reduceCtorEq, exists_false, List.mem_cons, forall_eq_or_imp, hc, Except.ok.injEq, exists_eq', true_and, false_iff] at ih ⊢
        exact ih
      | ok ds =>
        rw [hs] at ih
        simp only [Except.ok.injEq, exists_eq', true_iff, List.mem_cons, forall_eq_or_imp, hc, true_and] at ih ⊢
        exact ih

theorem printables_iff (cs : List CTree) : Printables cs ↔ ∀ c ∈ cs, Printable c := by
  induction cs with
  | nil => simp [Printables]
  | cons c cs ih => rw [Printables, ih]; simp

theorem sym_iff (r : Rule) : (∃ s, r.symbol = .ok s) ↔ r ≠ .unknown := by
  cases r <;> simp [Rule.symbol]

theorem horiz_node (K : CharSet) (sp : Nat) (str : Cat → List Char) (tx : Option String) (r : Rule) (ty : Cat) (h : Nat) (cs : List CTree) (hr : r ≠ .lexical)
    (P : List (List Char)) : horiz K sp str (.node tx r ty h cs) = .ok P ↔ ∃ ds, horizs K sp str cs = .ok ds ∧ cs ≠ [] ∧ r ≠ .unknown ∧ P = nodeLines K sp (symOf r) (str ty) ds := by
  rw [horiz, if_neg hr]
  cases hs : horizs K sp str cs with
  | error e => simp
  | ok ds =>
    by_cases hn : cs = []
    · simp [hn]
    · by_cases hu : r = .unknown
      · subst hu; simp [hn, Rule.symbol]
      · simp only [sym_ok r hu, hn, if_false, Except.ok.injEq, exists_eq_left', ne_eq, not_false_eq_true, hu, true_and]
        exact eq_comm

mutual
theorem total_main (K : CharSet) (sp : Nat) (str : Cat → List Char) : (t : CTree) → ((∃ P, horiz K sp str t = .ok P) ↔ Printable t)
  | .node tx r ty h cs => by
    have hc := totals_main K sp str cs
    rw [Printable]
    by_cases hr : r = .lexical
    · simp [horiz, hr]
    · simp only [horiz_node K sp str tx r ty h cs hr, hr, false_or]
      constructor
      · rintro ⟨P, ds, h1, h2, h3, _⟩
        exact ⟨h3, h2, (printables_iff cs).2 fun c hx => (hc c hx).1 ((horizs_iff K sp str cs).1 ⟨ds, h1⟩ c hx)⟩
      · rintro ⟨h3, h2, h4⟩
        obtain ⟨ds, hd⟩ := (horizs_iff K sp str cs).2 fun c hx => (hc c hx).2 ((printables_iff cs).1 h4 c hx)
        exact ⟨_, ds, hd, h2, h3, rfl⟩
theorem totals_main (K : CharSet) (sp : Nat) (str : Cat → List Char) : (cs : List CTree) → ∀ c ∈ cs, ((∃ P, horiz K sp str c = .ok P) ↔ Printable c)
  | [] => by simp
  | x :: xs => by
    have h1 := total_main K sp str x
    have h2 := totals_main K sp str xs
    intro c hc
    rcases List.mem_cons.1 hc with rfl | hc
    · exact h1
    · exact h2 c hc
end

/-- A derivation can be printed horizontally iff each node that is no word has children and a rule with a symbol; vertically always. -/
theorem C109_total (rpr : List Char → List Char) (sp : Nat) (us ua : Bool) (t : CTree) :
    ((∃ P, deriv rpr sp us ua false t = .ok P) ↔ Printable t) ∧ ∃ P, deriv rpr sp us ua true t = .ok P := by
  simp only [deriv]
  exact ⟨total_main _ sp _ t, by simp⟩

theorem fold_length (sp : Nat) (ds : List (List (List Char))) (acc : List (List Char)) :
    (ds.foldl (mergeAt sp 0) acc).length = ds.foldl (fun n d => max n d.length) acc.length := by
  induction ds generalizing acc with
  | nil => rfl
  | cons d ds ih => rw [List.foldl_cons, ih, mergeAt_length]; rfl

theorem fold_max (sp : Nat) (ds : List (List (List Char))) (n : Nat) : ds.foldl (fun n d => max n d.length) n = max n ((ds.map List.length).foldr max 0) := by
  induction ds generalizing n with
  | nil => simp
  | cons d ds ih => rw [List.foldl_cons, ih]; simp only [List.map_cons, List.foldr_cons]; omega

theorem horizs_cons (K : CharSet) (sp : Nat) (str : Cat → List Char) (c : CTree) (cs : List CTree) (ds : List (List (List Char))) :
    horizs K sp str (c :: cs) = .ok ds ↔ ∃ d ds', horiz K sp str c = .ok d ∧ horizs K sp str cs = .ok ds' ∧ ds = d :: ds' := by
  rw [horizs]
  cases horiz K sp str c with
  | error e => simp
  | ok d =>
    cases horizs K sp str cs with
    | error e => simp
    | ok ds' => simp [eq_comm]

theorem nodeLines_length (K : CharSet) (sp : Nat) (sym out : List Char) (ds : List (List (List Char))) :
    (nodeLines K sp sym out ds).length = (ds.map List.length).foldr max 0 + 2 := by
  have h := fold_length sp ds []
  rw [fold_max sp] at h
  simp only [nodeLines]
  split <;> simp [h]

mutual
theorem count_main (K : CharSet) (sp : Nat) (str : Cat → List Char) : (t : CTree) → ∀ P, horiz K sp str t = .ok P → P.length = 3 + 2 * depth t
  | .node tx r ty h cs => by
    have hc := counts_main K sp str cs
    intro P hP
    by_cases hr : r = .lexical
    · subst hr; simp only [horiz, if_true] at hP; cases hP; simp [depth]
    · rw [horiz_node K sp str tx r ty h cs hr] at hP
      obtain ⟨ds, h1, h2, h3, rfl⟩ := hP
      rw [nodeLines_length, depth, if_neg hr, hc ds h1 h2]; omega
theorem counts_main (K : CharSet) (sp : Nat) (str : Cat → List Char) : (cs : List CTree) → ∀ ds, horizs K sp str cs = .ok ds → cs ≠ [] →
    (ds.map List.length).foldr max 0 = 3 + 2 * depths cs
  | [] => by simp
  | x :: xs => by
    have h1 := count_main K sp str x
    have h2 := counts_main K sp str xs
    intro ds hds _
    obtain ⟨d, ds', hd, hs, rfl⟩ := (horizs_cons K sp str x xs ds).1 hds
    rw [List.map_cons, List.foldr_cons, h1 d hd, depths]
    by_cases hx : xs = []
    · subst hx; rw [horizs] at hs; cases hs; simp [depths]
    · rw [h2 ds' hs hx]; omega
end

/-- A derivation takes three lines and two more for each level. -/
theorem C109_line_count (rpr : List Char → List Char) (sp : Nat) (us ua : Bool) (t : CTree) (P : List (List Char)) (hP : deriv rpr sp us ua false t = .ok P) :
    P.length = 3 + 2 * depth t := by
  simp only [deriv] at hP
  exact count_main _ sp _ t P hP

theorem inked_blanks (n : Nat) : inked (blanks n) = [] := by simp [inked, blanks]
theorem inked_append (a b : List Char) : inked (a ++ b) = inked a ++ inked b := by simp [inked]
theorem inked_center (s : List Char) (w : Nat) : inked (center s w) = inked s := by simp [center, inked_append, inked_blanks]

/-- first lines, without blanks -/
def firstInk (B : List (List Char)) : List Char := inked (B.headD [])

theorem mergeAt_first (sp : Nat) (acc d : List (List Char)) : firstInk (mergeAt sp 0 acc d) = firstInk acc ++ firstInk d := by
  cases acc with
  | nil => cases d with
    | nil => simp [mergeAt, extend, firstInk, inked]
    | cons c cs => simp [mergeAt, extend, firstInk, inked, rjust]
  | cons l ls => cases d with
    | nil => simp only [mergeAt, firstInk, List.headD_cons, inked_append, inked_blanks]; simp [inked]
    | cons c cs => simp only [mergeAt, firstInk, List.headD_cons, inked_append, inked_blanks, List.append_nil]

theorem fold_first (sp : Nat) (ds : List (List (List Char))) (acc : List (List Char)) :
    firstInk (ds.foldl (mergeAt sp 0) acc) = firstInk acc ++ (ds.map firstInk).flatten := by
  induction ds generalizing acc with
  | nil => simp
  | cons d ds ih => rw [List.foldl_cons, ih, mergeAt_first]; simp

theorem nodeLines_first (K : CharSet) (sp : Nat) (sym out : List Char) (ds : List (List (List Char))) (hn : 0 < (ds.map List.length).foldr max 0) :
    firstInk (nodeLines K sp sym out ds) = (ds.map firstInk).flatten := by
  have h := fold_first sp ds []
  have hl := fold_length sp ds []
  rw [fold_max sp] at hl
  simp only [nodeLines]
  generalize ds.foldl (mergeAt sp 0) [] = L at h hl
  cases L with
  | nil => simp at hl; omega
  | cons l ls =>
    have h0 : firstInk ([] : List (List Char)) = [] := rfl
    rw [h0, List.nil_append] at h
    rw [← h]
    split
    · simp [firstInk, inked_center]
    · simp [firstInk]

mutual
theorem words_main (K : CharSet) (sp : Nat) (str : Cat → List Char) : (t : CTree) → ∀ P, horiz K sp str t = .ok P → firstInk P = inked (wordsOf t).flatten
  | .node tx r ty h cs => by
    have hc := wordss_main K sp str cs
    intro P hP
    by_cases hr : r = .lexical
    · subst hr; simp only [horiz, if_true] at hP; cases hP
      rw [wordsOf]; simp [firstInk, inked_center]
    · rw [horiz_node K sp str tx r ty h cs hr] at hP
      obtain ⟨ds, h1, h2, h3, rfl⟩ := hP
      have h4 := counts_main K sp str cs ds h1 h2
      rw [nodeLines_first K sp _ _ ds (by omega), wordsOf, if_neg hr, hc ds h1]
theorem wordss_main (K : CharSet) (sp : Nat) (str : Cat → List Char) : (cs : List CTree) → ∀ ds, horizs K sp str cs = .ok ds →
    (ds.map firstInk).flatten = inked (wordsOfs cs).flatten
  | [] => by
    intro ds hds
    rw [horizs] at hds; cases hds; simp [wordsOfs, inked]
  | x :: xs => by
    have h1 := words_main K sp str x
    have h2 := wordss_main K sp str xs
    intro ds hds
    obtain ⟨d, ds', hd, hs, rfl⟩ := (horizs_cons K sp str x xs ds).1 hds
    rw [List.map_cons, List.flatten_cons, h1 d hd, h2 ds' hs, wordsOfs, List.flatten_append, inked_append]
end

/-- The first line shows the words in order: they are all that is not blank in it. -/
theorem C109_words (rpr : List Char → List Char) (sp : Nat) (us ua : Bool) (t : CTree) (P : List (List Char)) (hP : deriv rpr sp us ua false t = .ok P) :
    ∃ l ls, P = l :: ls ∧ inked l = inked (wordsOf t).flatten := by
  have hc := C109_line_count rpr sp us ua t P hP
  simp only [deriv] at hP
  have h := words_main _ sp _ t P hP
  cases P with
  | nil => simp at hc; omega
  | cons l ls => exact ⟨l, ls, rfl, h⟩

/-! ## Vertical -/

theorem branches_snoc (K : CharSet) (w : List Bool) (a : Bool) (h : w ≠ []) :
    branches K (w ++ [a]) = (branches K w).dropLast ++ (if w.getLast h = true then [' ', ' '] else [K.bar, ' ']) ++ [if a = true then K.corner else K.joint] := by
  induction w with
  | nil => exact absurd rfl h
  | cons b w ih =>
    cases w with
    | nil => cases b <;> simp [branches]
    | cons b' w =>
      have := ih (by simp)
      simp only [List.cons_append, branches] at this ⊢
      rw [this]
      have hne : branches K (b' :: w) ≠ [] := by cases w <;> simp [branches]
      have hg : (b :: b' :: w).getLast h = (b' :: w).getLast (by simp) := List.getLast_cons (by simp)
      rw [hg]
      simp only [List.dropLast_cons_of_ne_nil (show (' ' :: branches K (b' :: w)) ≠ [] by simp), List.dropLast_cons_of_ne_nil hne, List.cons_append]

theorem branches_last (K : CharSet) (w : List Bool) (h : w ≠ []) : (branches K w).getLast? = some (if w.getLast h = true then K.corner else K.joint) := by
  induction w with
  | nil => exact absurd rfl h
  | cons b w ih =>
    cases w with
    | nil => cases b <;> simp [branches]
    | cons b' w =>
      have hne : branches K (b' :: w) ≠ [] := by cases w <;> simp [branches]
      have := ih (by simp)
      rw [List.getLast_cons (by simp), branches]
      rw [← this]
      simp [List.getLast?_cons, hne]
      cases hb : (branches K (b' :: w)).getLast? with
      | none => rw [List.getLast?_eq_none_iff] at hb; exact absurd hb hne
      | some c => simp

theorem next_branches (K : CharSet) (hK : K.joint ≠ K.corner) (w : List Bool) (a : Bool) :
    nextPrefix K (branches K w) ++ [if a = true then K.corner else K.joint] = branches K (w ++ [a]) := by
  by_cases h : w = []
  · subst h; cases a <;> simp [branches, nextPrefix]
  · rw [branches_snoc K w a h, nextPrefix, branches_last K w h]
    simp only
    cases hl : w.getLast h with
    | true =>
      have : K.corner ≠ K.joint := fun e => hK e.symm
      simp [this]
    | false => simp

mutual
theorem vert_main (K : CharSet) (hK : K.joint ≠ K.corner) (str : Cat → List Char) (rpr : List Char → List Char) : (t : CTree) → ∀ w,
    vert K str rpr (branches K w) t = (outline w t).map (fun x => branches K x.1 ++ label K str rpr x.2)
  | .node tx r ty h cs => by
    have hc := verts_main K hK str rpr cs
    intro w
    rw [vert, outline, List.map_cons]
    congr 1
    by_cases hn : cs = []
    · subst hn; simp [outlines]
    · rw [if_neg hn]; exact hc w
theorem verts_main (K : CharSet) (hK : K.joint ≠ K.corner) (str : Cat → List Char) (rpr : List Char → List Char) : (cs : List CTree) → ∀ w,
    verts K str rpr (nextPrefix K (branches K w)) cs = (outlines w cs).map (fun x => branches K x.1 ++ label K str rpr x.2)
  | [] => by intro w; simp [verts, outlines]
  | [c] => by
    have h1 := vert_main K hK str rpr c
    intro w
    have hb := next_branches K hK w true
    simp only [if_true] at hb
    rw [verts, hb, h1, outlines, outlines]
    simp
  | c :: c' :: cs => by
    have h1 := vert_main K hK str rpr c
    have h2 := verts_main K hK str rpr (c' :: cs)
    intro w
    have hb := next_branches K hK w false
    simp only [Bool.false_eq_true, if_false] at hb
    have ho : outlines w (c :: c' :: cs) = outline (w ++ [false]) c ++ outlines w (c' :: cs) := by
      conv_lhs => rw [outlines]
      rfl
    rw [verts, hb, h1, h2, ho, List.map_append]
end

/-- Vertically there is one line for each node, in reading order: the branches that lead to it, then its type, and its text or its rule and the types of its children. -/
theorem C109_vertical (rpr : List Char → List Char) (sp : Nat) (us ua : Bool) (t : CTree) :
    deriv rpr sp us ua true t = .ok ((outline [] t).map (fun x => branches (if ua = true then asciiSet else unicodeSet) x.1
      ++ label (if ua = true then asciiSet else unicodeSet) (if (us || ua) = true then Cat.toStr else Cat.toPretty) rpr x.2)) := by
  have hK : (if ua = true then asciiSet else unicodeSet).joint ≠ (if ua = true then asciiSet else unicodeSet).corner := by cases ua <;> decide
  have := vert_main _ hK (if (us || ua) = true then Cat.toStr else Cat.toPretty) rpr t []
  simp only [deriv, if_true]
  rw [← this]
  rfl

mutual
/-- The nodes of the outline are the subtrees. -/
theorem outline_nodes : (t : CTree) → ∀ w, (outline w t).map Prod.snd = t.subtrees
  | .node tx r ty h cs => by
    have hc := outlines_nodes cs
    intro w
    rw [outline, List.map_cons, hc w, CTree.subtrees]
theorem outlines_nodes : (cs : List CTree) → ∀ w, (outlines w cs).map Prod.snd = CTree.subtreess cs
  | [] => by intro w; simp [outlines, CTree.subtreess]
  | c :: cs => by
    have h1 := outline_nodes c
    have h2 := outlines_nodes cs
    intro w
    rw [outlines, List.map_append, h1, h2, CTree.subtreess]
end

/-- ... so there are as many lines as nodes, the first one for the root. -/
theorem C109_vertical_nodes (rpr : List Char → List Char) (sp : Nat) (us ua : Bool) (t : CTree) (P : List (List Char)) (hP : deriv rpr sp us ua true t = .ok P) :
    P.length = t.subtrees.length ∧ P.head? = some (label (if ua = true then asciiSet else unicodeSet) (if (us || ua) = true then Cat.toStr else Cat.toPretty) rpr t) := by
  rw [C109_vertical] at hP
  cases hP
  constructor
  · rw [List.length_map, ← outline_nodes t [], List.length_map]
  · cases t; rw [outline]; rfl

/-! ## ASCII -/

theorem isAscii_blanks (n : Nat) : isAscii (blanks n) := by
  intro c hc; simp only [blanks, List.mem_replicate] at hc; rw [hc.2]; decide
theorem isAscii_append (a b : List Char) (ha : isAscii a) (hb : isAscii b) : isAscii (a ++ b) := by
  intro c hc; rcases List.mem_append.1 hc with h | h
  · exact ha c h
  · exact hb c h
theorem isAscii_replicate (n : Nat) (c : Char) (h : c.toNat < 128) : isAscii (List.replicate n c) := by
  intro x hx; rw [(List.mem_replicate.1 hx).2]; exact h
theorem isAscii_center (s : List Char) (w : Nat) (h : isAscii s) : isAscii (center s w) :=
  isAscii_append _ _ (isAscii_append _ _ (isAscii_blanks _) h) (isAscii_blanks _)

theorem mergeAt_ascii (sp prev : Nat) (acc d : List (List Char)) (ha : ∀ l ∈ acc, isAscii l) (hd : ∀ l ∈ d, isAscii l) : ∀ l ∈ mergeAt sp prev acc d, isAscii l := by
  induction acc generalizing prev d with
  | nil =>
    induction d generalizing prev with
    | nil => simp [mergeAt, extend]
    | cons c cs ih =>
      simp only [mergeAt, extend] at ih ⊢
      intro l hl
      rcases List.mem_cons.1 hl with rfl | hl
      · exact isAscii_append _ _ (isAscii_replicate _ _ (by decide)) (hd c (by simp))
      · exact ih _ (fun x hx => hd x (by simp [hx])) l hl
  | cons a as ih =>
    cases d with
    | nil =>
      simp only [mergeAt]
      intro l hl
      rcases List.mem_cons.1 hl with rfl | hl
      · exact isAscii_append _ _ (ha a (by simp)) (isAscii_blanks _)
      · exact ih _ _ (fun x hx => ha x (by simp [hx])) (by simp) l hl
    | cons c cs =>
      simp only [mergeAt]
      intro l hl
      rcases List.mem_cons.1 hl with rfl | hl
      · exact isAscii_append _ _ (isAscii_append _ _ (ha a (by simp)) (isAscii_blanks _)) (hd c (by simp))
      · exact ih _ _ (fun x hx => ha x (by simp [hx])) (fun x hx => hd x (by simp [hx])) l hl

theorem fold_ascii (sp : Nat) (ds : List (List (List Char))) (acc : List (List Char)) (ha : ∀ l ∈ acc, isAscii l) (hd : ∀ d ∈ ds, ∀ l ∈ d, isAscii l) :
    ∀ l ∈ ds.foldl (mergeAt sp 0) acc, isAscii l := by
  induction ds generalizing acc with
  | nil => exact ha
  | cons d ds ih =>
    rw [List.foldl_cons]
    exact ih _ (mergeAt_ascii sp 0 acc d ha (hd d (by simp))) (fun x hx => hd x (by simp [hx]))

theorem sym_ascii (r : Rule) (h : r ≠ .gfc ∧ r ≠ .gbc ∧ r ≠ .gfx ∧ r ≠ .gbx) : isAscii (symOf r) := by
  cases r <;> simp_all [isAscii, symOf, Rule.symbol]

theorem nodeLines_ascii (sp : Nat) (sym out : List Char) (ds : List (List (List Char))) (hs : isAscii sym) (ho : isAscii out) (hd : ∀ d ∈ ds, ∀ l ∈ d, isAscii l) :
    ∀ l ∈ nodeLines asciiSet sp sym out ds, isAscii l := by
  have hf := fold_ascii sp ds [] (by simp) hd
  have hline : asciiSet.line.toNat < 128 := by decide
  intro l hl
  simp only [nodeLines] at hl
  split at hl
  · simp only [List.mem_append, List.mem_map, List.mem_cons, List.not_mem_nil, or_false] at hl
    rcases hl with ⟨x, hx, rfl⟩ | rfl | rfl
    · exact isAscii_center _ _ (hf x hx)
    · exact isAscii_append _ _ (isAscii_replicate _ _ hline) hs
    · exact isAscii_center _ _ ho
  · simp only [List.mem_append, List.mem_cons, List.not_mem_nil, or_false] at hl
    rcases hl with hx | rfl | rfl
    · exact hf l hx
    · exact isAscii_append _ _ (isAscii_replicate _ _ hline) hs
    · exact isAscii_center _ _ ho

mutual
theorem ascii_main (sp : Nat) (str : Cat → List Char) : (t : CTree) → AsciiTree str t → ∀ P, horiz asciiSet sp str t = .ok P → ∀ l ∈ P, isAscii l
  | .node tx r ty h cs => by
    have hc := asciis_main sp str cs
    intro ht P hP
    rw [AsciiTree] at ht
    obtain ⟨hty, ht⟩ := ht
    by_cases hr : r = .lexical
    · subst hr
      simp only [horiz, if_true] at hP; cases hP
      rcases ht with ⟨_, htx⟩ | ⟨h1, _⟩
      · intro l hl
        simp only [List.mem_cons, List.not_mem_nil, or_false] at hl
        rcases hl with rfl | rfl | rfl
        · exact isAscii_center _ _ htx
        · exact isAscii_replicate _ _ (by decide)
        · exact isAscii_center _ _ hty
      · exact absurd rfl h1
    · rw [horiz_node asciiSet sp str tx r ty h cs hr] at hP
      obtain ⟨ds, h1, h2, h3, rfl⟩ := hP
      rcases ht with ⟨h4, _⟩ | ⟨_, g1, g2, g3, g4, hcs⟩
      · exact absurd h4 hr
      · exact nodeLines_ascii sp _ _ ds (sym_ascii r ⟨g1, g2, g3, g4⟩) hty (hc hcs ds h1)
theorem asciis_main (sp : Nat) (str : Cat → List Char) : (cs : List CTree) → AsciiTrees str cs → ∀ ds, horizs asciiSet sp str cs = .ok ds → ∀ d ∈ ds, ∀ l ∈ d, isAscii l
  | [] => by intro _ ds hds; rw [horizs] at hds; cases hds; simp
  | x :: xs => by
    have h1 := ascii_main sp str x
    have h2 := asciis_main sp str xs
    intro ht ds hds
    rw [AsciiTrees] at ht
    obtain ⟨d, ds', hd, hs, rfl⟩ := (horizs_cons asciiSet sp str x xs ds).1 hds
    intro e he
    rcases List.mem_cons.1 he with rfl | he
    · exact h1 ht.1 e hd
    · exact h2 ht.2 ds' hs e he
end

/-- With `use_ascii` a horizontal derivation is in ASCII if words and types are, and no rule is a generalised one. -/
theorem C109_ascii_partial (rpr : List Char → List Char) (sp : Nat) (us : Bool) (t : CTree) (ht : AsciiTree Cat.toStr t) (P : List (List Char))
    (hP : deriv rpr sp us true false t = .ok P) : ∀ l ∈ P, isAscii l := by
  simp only [deriv, Bool.or_true, if_true] at hP
  exact ascii_main sp Cat.toStr t ht P hP

/-! ## Examples and refutations -/

def leafOf (w : String) (c : Cat) : CTree := .node (some w) .lexical c 0 []
def np : Cat := .atom "n"

/-- `John sleeps`: `n` and `s\n`. -/
def exTree : CTree := .node none .ba (.atom "s") 1 [leafOf "John" np, leafOf "sleeps" (.under (.atom "s") np)]

example : deriv id 2 true false false exTree = .ok
    [['J','o','h','n',' ',' ','s','l','e','e','p','s'], ['═','═','═','═',' ',' ','═','═','═','═','═','═'], [' ','n',' ',' ',' ',' ',' ','s','\\','n',' ',' '],
     ['─','─','─','─','─','─','─','─','─','─','─','<'], [' ',' ',' ',' ',' ','s',' ',' ',' ',' ',' ',' ']] := by decide +kernel
example : Branching Cat.toStr exTree ∧ AsciiTree Cat.toStr exTree := by
  constructor
  · rw [exTree, Branching]
    refine ⟨by decide +kernel, .inr ⟨by decide, by decide, ?_⟩⟩
    simp only [leafOf, Branchings, Branching, true_or, and_true]
    exact ⟨by decide +kernel, by decide +kernel⟩
  · rw [exTree, AsciiTree]
    simp only [leafOf, AsciiTrees, AsciiTree, isAscii]
    refine ⟨by decide +kernel, .inr ⟨by decide, by decide, by decide, by decide, by decide, ⟨by decide +kernel, .inl ⟨trivial, by decide +kernel⟩⟩,
      ⟨by decide +kernel, .inl ⟨trivial, by decide +kernel⟩⟩, trivial⟩⟩
example : deriv id 2 true true true exTree = .ok
    [['B','A',':',' ','s',' ','<','-',' ','n',' ','+',' ','s','\\','n'], ['├',' ','n',' ','<','-',' ','J','o','h','n'], ['└',' ','s','\\','n',' ','<','-',' ','s','l','e','e','p','s']] := by decide +kernel

/-- `a` raised from `n` to `p` next to `b`. -/
def exNarrow : CTree := .node none .fa (.atom "s") 2 [.node none .unary (.atom "p") 1 [leafOf "a" np], leafOf "b" np]

/-- The type `p` is alone printed below `a`, but as soon as that tree is part of another one it is moved to the right. -/
example : deriv id 2 true false false (.node none .unary (.atom "p") 1 [leafOf "a" np]) = .ok [['a'], ['═'], ['n'], ['<','U','>'], ['p']] := by decide +kernel

/-- Refuted: a type is not always printed below the words it belongs to: `p`, the type of `a`, stands below the gap, or below `b`; and a tree that is narrower than a symbol has lines of different lengths. -/
theorem C109_refuted_aligned : deriv id 2 true false false exNarrow = .ok
    [['a',' ',' ','b'], ['═',' ',' ','═'], ['n',' ',' ','n'], ['<','U','>',' '], [' ',' ','p',' '], ['─','─','─','>'], [' ','s',' ',' ']]
    ∧ deriv id 1 true false false exNarrow = .ok
    [['a',' ','b'], ['═',' ','═'], ['n',' ','n'], ['<','U','>'], [' ',' ','p'], ['─','─','>'], [' ','s',' ']]
    ∧ deriv id 2 true false false (.node none .unary (.atom "p") 1 [leafOf "a" np]) = .ok [['a'], ['═'], ['n'], ['<','U','>'], ['p']] := by
  decide +kernel

/-- Refuted: with `use_ascii` generalised rules, and all vertical derivations with two nodes, are not in ASCII. -/
theorem C109_refuted_ascii (rpr : List Char → List Char) (sp : Nat) :
    (∃ P l, deriv rpr sp true true false (.node none .gfc np 1 [leafOf "a" np, leafOf "b" np]) = .ok P ∧ l ∈ P ∧ 'ⁿ' ∈ l)
    ∧ ∃ P l, deriv rpr sp true true true exTree = .ok P ∧ l ∈ P ∧ '└' ∈ l := by
  constructor
  · have hn := (horiz_node asciiSet sp Cat.toStr none .gfc np 1 [leafOf "a" np, leafOf "b" np] (by decide) _).2 ⟨_, rfl, by simp, by decide, rfl⟩
    have key : ∀ ds, ∃ n, rjust '-' ['>', 'B', 'ⁿ'] n ∈ nodeLines asciiSet sp (symOf .gfc) (Cat.toStr np) ds := by
      intro ds
      simp only [nodeLines]
      split
      · exact ⟨_, List.mem_append_right _ (List.mem_cons_self ..)⟩
      · exact ⟨_, List.mem_append_right _ (List.mem_cons_self ..)⟩
    obtain ⟨n, hm⟩ := key _
    exact ⟨_, _, hn, hm, by simp [rjust]⟩
  · refine ⟨_, ['└'] ++ label asciiSet Cat.toStr rpr (leafOf "sleeps" (.under (.atom "s") np)), rfl, ?_, ?_⟩
    · simp [vert, verts, nextPrefix, exTree, asciiSet, leafOf]
    · simp

/-- A unary tree with a rule the parser does not know raises in horizontal mode only. -/
theorem C109_refuted_unknown : deriv id 2 true false false (.node none .unknown np 1 [leafOf "a" np]) = .error .ruleUseError
    ∧ ∃ P, deriv id 2 true false true (.node none .unknown np 1 [leafOf "a" np]) = .ok P := ⟨by decide +kernel, _, rfl⟩

end Deriv
end Lambeq
