import Verif.Ccg.Bank

/-!
# Reading CCGBank, the theorems (C94)
-/

namespace Lambeq
namespace Bank
open Deriv
set_option linter.unusedSimpArgs false

/-! ## Fields -/

/-- What can follow a node: the end, or a space and something that is not one. -/
def Next (s : List Char) : Prop := s = [] ∨ ∃ r, s = ' ' :: r ∧ ∀ c ∈ r.head?, space c = false

theorem run_take (f rest : List Char) (hf : ∀ c ∈ f, c.isWhitespace = false) (hr : ∀ c ∈ rest.head?, space c = true) :
    (f ++ rest).takeWhile (fun c => !space c) = f ∧ (f ++ rest).dropWhile (fun c => !space c) = rest := by
  have hp : ∀ c ∈ f, (!space c) = true := fun c hc => by simp [space, hf c hc]
  rw [List.takeWhile_append_of_pos hp, List.dropWhile_append_of_pos hp]
  cases rest with
  | nil => simp
  | cons c t =>
    have := hr c rfl
    rw [List.takeWhile_cons_of_neg (by simp [this]), List.dropWhile_cons_of_neg (by simp [this])]
    simp

theorem drop_spaces (r : List Char) (h : ∀ c ∈ r.head?, space c = false) : r.dropWhile space = r := by
  cases r with
  | nil => rfl
  | cons c t => rw [List.dropWhile_cons_of_neg (by simp [h c rfl])]

theorem spaces_one (r : List Char) (h : ∀ c ∈ r.head?, space c = false) : spaces (' ' :: r) = some r := by
  rw [spaces, if_pos (by decide), drop_spaces r h]

theorem field_one (f r : List Char) (hf : Field f) (h : ∀ c ∈ r.head?, space c = false) : field (f ++ ' ' :: r) = some (f, r) := by
  obtain ⟨h1, h2⟩ := run_take f (' ' :: r) hf.2 (by intro c hc; simp at hc; subst hc; decide)
  rw [field]
  simp only [h1, h2]
  rw [if_neg hf.1, spaces_one r h]
  rfl

theorem field_head (f r : List Char) (hf : Field f) : ∀ c ∈ (f ++ r).head?, space c = false := by
  intro c hc
  cases f with
  | nil => exact absurd rfl hf.1
  | cons a t => simp at hc; subst hc; exact hf.2 a List.mem_cons_self

theorem lastClose_end (p : List Char) : lastClose (p ++ ['>', ')']) = some (p, []) := by
  induction p with
  | nil => rfl
  | cons c p ih => rw [List.cons_append, lastClose, ih]

theorem next_drop {s : List Char} (h : Next s) : s.dropWhile space = s.drop 1 := by
  rcases h with rfl | ⟨r, rfl, h⟩
  · rfl
  · rw [List.dropWhile_cons_of_pos (by decide), drop_spaces r h]; rfl

theorem next_head {s : List Char} (h : Next s) : ∀ c ∈ s.head?, space c = true := by
  intro c hc
  rcases h with rfl | ⟨r, rfl, h⟩
  · simp at hc
  · simp at hc; subst hc; decide

theorem lastField_one (p s : List Char) (hp : Field p) (h : Next s) : lastField (p ++ ['>', ')'] ++ s) = some (s.drop 1) := by
  obtain ⟨h1, h2⟩ := run_take (p ++ ['>', ')']) s (by
    intro c hc
    rcases List.mem_append.1 hc with hc | hc
    · exact hp.2 c hc
    · simp at hc; rcases hc with rfl | rfl <;> decide) (next_head h)
  rw [lastField, h1, lastClose_end, h2]
  simp only [List.nil_append]
  rw [if_neg hp.1, next_drop h]

theorem countField_one (k : Nat) (r : List Char) (h : ∀ c ∈ r.head?, space c = false) : countField (Nat.toDigits 10 k ++ '>' :: ' ' :: r) = some r := by
  have hd : ∀ c ∈ Nat.toDigits 10 k, c.isDigit = true := fun c hc => Nat.isDigit_of_mem_toDigits (by omega) (by omega) hc
  rw [countField, List.dropWhile_append_of_pos hd, List.takeWhile_append_of_pos hd]
  rw [List.dropWhile_cons_of_neg (by decide), List.takeWhile_cons_of_neg (by decide)]
  simp only [List.append_nil]
  rw [if_neg Nat.toDigits_ne_nil, List.dropWhile_cons_of_pos (by decide), drop_spaces r h]

theorem digits_head (k : Nat) (r : List Char) : ∀ c ∈ (Nat.toDigits 10 k ++ r).head?, space c = false := by
  intro c hc
  have hne : Nat.toDigits 10 k ≠ [] := Nat.toDigits_ne_nil
  cases hk : Nat.toDigits 10 k with
  | nil => exact absurd hk hne
  | cons a t =>
    rw [hk] at hc
    simp at hc; subst hc
    have : a.isDigit = true := Nat.isDigit_of_mem_toDigits (b := 10) (n := k) (by omega) (by omega) (by rw [hk]; exact List.mem_cons_self)
    by_contra hs
    have hs : a.isWhitespace = true := by simpa [space] using hs
    simp [Char.isWhitespace] at hs
    rcases hs with ((rfl | rfl) | rfl) | rfl <;> revert this <;> decide

theorem match_leaf (cat mod orig word pred s : List Char) (h : Ok (.leaf cat mod orig word pred)) (hs : Next s) :
    matchNode (print (.leaf cat mod orig word pred) ++ s) = some (⟨cat, some word⟩, s.drop 1) := by
  obtain ⟨h1, h2, h3, h4, h5⟩ := h
  have e : print (.leaf cat mod orig word pred) ++ s =
      '(' :: '<' :: 'L' :: (' ' :: (cat ++ ' ' :: (mod ++ ' ' :: (orig ++ ' ' :: (word ++ ' ' :: (pred ++ ['>', ')'] ++ s)))))) := by
    rw [print]; simp
  rw [e]
  simp only [matchNode]
  have hp : ∀ c ∈ (pred ++ ['>', ')'] ++ s).head?, space c = false := by rw [List.append_assoc]; exact field_head pred _ h5
  rw [headOf, spaces_one _ (field_head cat _ h1)]
  simp only
  rw [field_one cat _ h1 (field_head mod _ h2)]
  simp only [if_true]
  rw [leafFields, field_one mod _ h2 (field_head orig _ h3)]
  simp only
  rw [field_one orig _ h3 (field_head word _ h4)]
  simp only
  rw [field_one word _ h4 hp]
  simp only
  rw [lastField_one pred s h5 hs]
  rfl

theorem match_inner (cat : List Char) (h : Bool) (k : Nat) (ds : List Deriv) (s : List Char) (hc : Field cat) (hs : ∀ c ∈ (prints ds ++ [')'] ++ s).head?, space c = false) :
    matchNode (print (.node cat h k ds) ++ s) = some (⟨cat, none⟩, prints ds ++ [')'] ++ s) := by
  have e : print (.node cat h k ds) ++ s =
      '(' :: '<' :: 'T' :: (' ' :: (cat ++ ' ' :: ((if h then '1' else '0') :: ' ' :: (Nat.toDigits 10 k ++ '>' :: ' ' :: (prints ds ++ [')'] ++ s))))) := by
    rw [print]; simp
  rw [e]
  simp only [matchNode]
  have hh : ∀ c ∈ ((if h then '1' else '0') :: ' ' :: (Nat.toDigits 10 k ++ '>' :: ' ' :: (prints ds ++ [')'] ++ s))).head?, space c = false := by
    intro c hc; simp at hc; subst hc; cases h <;> decide
  rw [headOf, spaces_one _ (field_head cat _ hc)]
  simp only
  rw [field_one cat _ hc hh]
  simp only [Bool.false_eq_true, if_false]
  rw [innerFields, if_pos (by cases h <;> simp), spaces_one _ (digits_head _ _)]
  simp only
  rw [countField_one _ _ hs]
  rfl

/-! ## Trees -/

theorem print_pos (d : Deriv) : ∃ t, d.print = '(' :: t := by
  cases d with
  | leaf => exact ⟨_, by rw [print]; rfl⟩
  | node => exact ⟨_, by rw [print]; rfl⟩

theorem prints_head (ds : List Deriv) (s : List Char) : ∀ c ∈ (prints ds ++ [')'] ++ s).head?, space c = false := by
  intro c hc
  cases ds with
  | nil => simp [prints] at hc; subst hc; decide
  | cons d ds =>
    obtain ⟨t, e⟩ := print_pos d
    rw [prints, e] at hc
    simp at hc; subst hc; decide

mutual
/-- Reading a derivation that is followed by `s`. -/
theorem build_print (d : Deriv) (n : Nat) (s : List Char) (h : d.Ok) (hs : d.isLeaf = true → Next s) (hn : 2 * (d.print ++ s).length + 1 ≤ n) :
    build n (d.print ++ s) = d.tree.map (fun t => (t, s.drop 1)) := by
  cases d with
  | leaf cat mod orig word pred =>
    obtain ⟨n, rfl⟩ : ∃ m, n = m + 1 := ⟨n - 1, by omega⟩
    rw [build, match_leaf cat mod orig word pred s h (hs rfl)]
    simp only
    rw [tree]
    cases bankType cat with
    | error e => rfl
    | ok ty =>
      simp only
      have hw : CTree.truthy (some (unescape word)) = true := by
        have hne := h.2.2.2.1.1
        unfold unescape
        split_ifs <;> try rfl
        simp only [CTree.truthy, bne_iff_ne, ne_eq]
        intro e
        apply hne
        have := congrArg String.toList e
        simpa using this
      rw [CTree.mk, if_neg (by simp), hw]
      rfl
  | node cat hd k ds =>
    obtain ⟨n, rfl⟩ : ∃ m, n = m + 1 := ⟨n - 1, by omega⟩
    rw [build, match_inner cat hd k ds s h.1 (prints_head ds s)]
    simp only
    rw [tree]
    cases bankType cat with
    | error e => rfl
    | ok ty =>
      simp only
      have hk := kids_print ds n (s) h.2.2 (by
        have : (print (.node cat hd k ds) ++ s).length = 6 + cat.length + 2 + (Nat.toDigits 10 k).length + 1 + (prints ds).length + 1 + s.length := by
          rw [print]; simp; omega
        rw [this] at hn
        simp; omega)
      rw [List.append_assoc, List.singleton_append, hk]
      cases trees ds with
      | error e => rfl
      | ok cs =>
        simp only [Except.map]
        rw [finish]
        cases Rule.inferRule (cs.map CTree.ty) ty with
        | error e => rfl
        | ok r =>
          simp only
          cases CTree.mk none r ty cs with
          | error e => rfl
          | ok t =>
            simp only [Except.ok.injEq, Prod.mk.injEq, true_and]
            rfl
theorem kids_print (ds : List Deriv) (n : Nat) (s : List Char) (h : Oks ds) (hn : 2 * (prints ds ++ ')' :: s).length + 2 ≤ n) :
    buildKids n (prints ds ++ ')' :: s) = (trees ds).map (fun ts => (ts, ')' :: s)) := by
  cases ds with
  | nil =>
    obtain ⟨n, rfl⟩ : ∃ m, n = m + 1 := ⟨n - 1, by omega⟩
    rw [prints, List.nil_append, buildKids, if_pos rfl]; rfl
  | cons d ds =>
    obtain ⟨n, rfl⟩ : ∃ m, n = m + 1 := ⟨n - 1, by omega⟩
    have e : prints (d :: ds) ++ ')' :: s = d.print ++ (' ' :: (prints ds ++ ')' :: s)) := by rw [prints]; simp
    obtain ⟨t, ht⟩ := print_pos d
    rw [e] at hn ⊢
    have hb := build_print d n (' ' :: (prints ds ++ ')' :: s)) h.1 (fun _ => .inr ⟨_, rfl, by have := prints_head ds s; simpa using this⟩) (by omega)
    have hlen : (d.print ++ (' ' :: (prints ds ++ ')' :: s))).length = d.print.length + 1 + (prints ds ++ ')' :: s).length := by simp; omega
    have hk := kids_print ds n s h.2 (by rw [hlen] at hn; omega)
    rw [ht, List.cons_append] at hb ⊢
    rw [buildKids, if_neg (by decide), hb, trees]
    cases d.tree with
    | error e => rfl
    | ok t =>
      simp only [Except.map, List.drop_succ_cons, List.drop_zero]
      rw [hk]
      cases trees ds <;> rfl
end

theorem attempt_print (d : Deriv) (h : d.Ok) (s : List Char) (hs : s = [] ∨ s = [' ']) :
    attempt (d.print ++ s) = match d.tree with | .error _ => (none, true) | .ok t => (some t, false) := by
  have hn : Next s := by
    rcases hs with rfl | rfl
    · exact .inl rfl
    · exact .inr ⟨[], rfl, by simp⟩
  rw [attempt, build_print d _ s h (fun _ => hn) (Nat.le_refl _)]
  cases d.tree with
  | error e => rfl
  | ok t => rcases hs with rfl | rfl <;> rfl

/-! ## Examples -/

/-- `(<T S[dcl] 0 2> (<L NP PRP PRP -LRB- NP>) (<L S[dcl]\NP VBZ VBZ runs S[dcl]\NP_1>) )` -/
def exDeriv : Deriv := .node ['S', '[', 'd', 'c', 'l', ']'] false 2 [.leaf ['N', 'P'] ['P', 'R', 'P'] ['P', 'R', 'P'] ['-', 'L', 'R', 'B', '-'] ['N', 'P'],
  .leaf ['S', '[', 'd', 'c', 'l', ']', '\\', 'N', 'P'] ['V', 'B', 'Z'] ['V', 'B', 'Z'] ['r', 'u', 'n', 's'] ['S', '[', 'd', 'c', 'l', ']', '\\', 'N', 'P', '_', '1']]

def exTree : CTree := .node none .ba (.atom "s") 1 [.node (some "(") .lexical (.atom "np") 0 [], .node (some "runs") .lexical (.under (.atom "s") (.atom "np")) 0 []]

theorem exDeriv_ok : exDeriv.Ok := by
  simp only [exDeriv, Ok, Oks, Field]; decide

theorem exDeriv_tree : exDeriv.tree = .ok exTree := by
  have h1 : bankType ['S', '[', 'd', 'c', 'l', ']'] = .ok (.atom "s") := by decide +kernel
  have h2 : bankType ['N', 'P'] = .ok (.atom "np") := by decide +kernel
  have h3 : bankType ['S', '[', 'd', 'c', 'l', ']', '\\', 'N', 'P'] = .ok (.under (.atom "s") (.atom "np")) := by decide +kernel
  have h4 : Rule.inferRule [.atom "np", .under (.atom "s") (.atom "np")] (.atom "s") = .ok .ba := by decide +kernel
  have h5 : unescape ['-', 'L', 'R', 'B', '-'] = "(" := by decide +kernel
  have h6 : unescape ['r', 'u', 'n', 's'] = "runs" := by decide +kernel
  simp only [exDeriv, tree, trees, h1, h2, h3, h5, h6, List.map_cons, List.map_nil, CTree.ty, h4]
  rfl

/-! ## Theorems -/

/-- C94: a derivation in the format of CCGBank is read as its tree, with or without the space at the end. -/
theorem C94_roundtrip (d : Deriv) (h : d.Ok) (t : CTree) (ht : d.tree = .ok t) (suppress : Bool) :
    sentences2trees false suppress [d.print] = .ok [some t] ∧ sentences2trees false suppress [d.print ++ [' ']] = .ok [some t] := by
  have h1 := attempt_print d h [] (.inl rfl)
  have h2 := attempt_print d h [' '] (.inr rfl)
  rw [ht] at h1 h2
  rw [List.append_nil] at h1
  simp [sentences2trees, h1, h2]

example : exDeriv.Ok ∧ exDeriv.tree = .ok exTree ∧ String.ofList exDeriv.print = "(<T S[dcl] 0 2> (<L NP PRP PRP -LRB- NP>) (<L S[dcl]\\NP VBZ VBZ runs S[dcl]\\NP_1>) )" :=
  ⟨exDeriv_ok, exDeriv_tree, by decide +kernel⟩

/-- C94: where a category or a rule cannot be read, the entry is `None` if exceptions are suppressed, and `CCGBankParseError` is raised otherwise. -/
theorem C94_fails (d : Deriv) (h : d.Ok) (e : PyErr) (ht : d.tree = .error e) :
    sentences2trees false true [d.print] = .ok [none] ∧ sentences2trees false false [d.print] = .error .parseError := by
  have h1 := attempt_print d h [] (.inl rfl)
  rw [ht, List.append_nil] at h1
  simp [sentences2trees, h1]

example : let d : Deriv := .leaf ['X'] ['a'] ['b'] ['c'] ['d']
    d.Ok ∧ d.tree = .error .parseError := by
  have h1 : bankType ['X'] = .error .parseError := by decide +kernel
  refine ⟨?_, ?_⟩
  · simp only [Ok, Field]; decide
  · simp only [tree, h1]

/-- C94: a batch is read one sentence at a time: it succeeds if each sentence does on its own, with the same trees. -/
theorem C94_batch (suppress : Bool) (ss : List (List Char)) (ts : List (Option CTree)) :
    sentences2trees false suppress ss = .ok ts ↔ List.Forall₂ (fun s t => sentences2trees false suppress [s] = .ok [t]) ss ts := by
  induction ss generalizing ts with
  | nil => cases ts <;> simp [sentences2trees]
  | cons s ss ih =>
    cases ts with
    | nil =>
      simp only [sentences2trees, List.forall₂_nil_right_iff, reduceCtorEq, iff_false, Bool.false_eq_true, if_false]
      split_ifs
      · simp
      · cases sentences2trees false suppress ss <;> simp
    | cons t ts =>
      rw [List.forall₂_cons, ← ih ts]
      simp only [sentences2trees, Bool.false_eq_true, if_false]
      split_ifs
      · simp
      · cases sentences2trees false suppress ss with
        | error e => simp
        | ok us => simp

/-- C94: with exceptions suppressed a batch never fails; otherwise the only exception is `CCGBankParseError`, and there is one if a sentence fails on its own. -/
theorem C94_errors (ss : List (List Char)) :
    (∃ ts, sentences2trees false true ss = .ok ts ∧ ts.length = ss.length) ∧
    ((∃ ts, sentences2trees false false ss = .ok ts) ∨ sentences2trees false false ss = .error .parseError) ∧
    ((∃ s ∈ ss, sentences2trees false false [s] = .error .parseError) → sentences2trees false false ss = .error .parseError) := by
  induction ss with
  | nil => simp [sentences2trees]
  | cons s ss ih =>
    obtain ⟨⟨ts, h1, h1'⟩, h2, h3⟩ := ih
    refine ⟨⟨(attempt s).1 :: ts, by simp [sentences2trees, h1], by simp [h1']⟩, ?_, ?_⟩
    · simp only [sentences2trees, Bool.false_eq_true, if_false]
      split_ifs
      · exact .inr rfl
      · rcases h2 with ⟨us, h2⟩ | h2
        · rw [h2]; exact .inl ⟨_, rfl⟩
        · rw [h2]; exact .inr rfl
    · rintro ⟨x, hx, he⟩
      simp only [sentences2trees, Bool.false_eq_true, if_false]
      split_ifs with hc
      · rfl
      · rcases List.mem_cons.1 hx with rfl | hx
        · simp [sentences2trees] at he
          exact absurd (by simpa using he) hc
        · rw [h3 ⟨x, hx, he⟩]

/-- C94, refuted: the entry of a sentence that fails is not always `None`: with text after a derivation, the tree of the derivation is returned if exceptions are suppressed,
although the same sentence raises if they are not. -/
theorem C94_refuted_extra_text (d : Deriv) (h : d.Ok) (t : CTree) (ht : d.tree = .ok t) (c : Char) (x : List Char) (hc : c.isWhitespace = false) :
    sentences2trees false true [d.print ++ (' ' :: c :: x)] = .ok [some t] ∧ sentences2trees false false [d.print ++ (' ' :: c :: x)] = .error .parseError := by
  have hn : Next (' ' :: c :: x) := .inr ⟨c :: x, rfl, by intro a ha; simp at ha; subst ha; exact hc⟩
  have hb := build_print d _ (' ' :: c :: x) h (fun _ => hn) (Nat.le_refl _)
  rw [ht] at hb
  have ha : attempt (d.print ++ (' ' :: c :: x)) = (some t, true) := by rw [attempt, hb]; rfl
  simp [sentences2trees, ha]

/-- C94, refuted: one character after the last bracket is ignored, whatever it is. -/
theorem C94_refuted_last_character (d : Deriv) (h : d.Ok) (hl : d.isLeaf = false) (t : CTree) (ht : d.tree = .ok t) (c : Char) :
    sentences2trees false false [d.print ++ [c]] = .ok [some t] := by
  have hb := build_print d _ [c] h (by simp [hl]) (Nat.le_refl _)
  rw [ht] at hb
  have ha : attempt (d.print ++ [c]) = (some t, false) := by rw [attempt, hb]; rfl
  simp [sentences2trees, ha]

example : exDeriv.isLeaf = false := rfl

/-- C94, refuted: the number of children is not compared with the children. -/
theorem C94_refuted_count : ∃ (d : Deriv) (t : CTree), d.Ok ∧ ¬ d.Counted ∧ sentences2trees false false [d.print] = .ok [some t] := by
  let d : Deriv := .node ['N', 'P'] false 7 [.leaf ['N'] ['a'] ['b'] ['c'] ['d']]
  have hok : d.Ok := by simp only [d, Ok, Oks, Field]; decide
  have h1 : bankType ['N'] = .ok (.atom "n") := by decide +kernel
  have h2 : bankType ['N', 'P'] = .ok (.atom "np") := by decide +kernel
  have h4 : Rule.inferRule [.atom "n"] (.atom "np") = .ok .unary := by decide +kernel
  have ht : ∃ t, d.tree = .ok t := by
    simp only [d, tree, trees, h1, h2, List.map_cons, List.map_nil, CTree.ty, h4]
    exact ⟨_, rfl⟩
  obtain ⟨t, ht⟩ := ht
  exact ⟨d, t, hok, by simp [d, Counted], (C94_roundtrip d hok t ht false).1⟩

/-- C94, refuted: the pattern allows for no space after a node, but without a space after a node with children the text cannot be read. -/
theorem C94_refuted_no_space : sentences2trees false false ["(<T NP 0 1> (<T N 0 1> (<L N a b c d>) ) )".toList] ≠ .error .parseError ∧
    sentences2trees false false ["(<T NP 0 1> (<T N 0 1> (<L N a b c d>)) )".toList] ≠ .error .parseError ∧
    sentences2trees false false ["(<T NP 0 1> (<T N 0 1> (<L N a b c d>) ))".toList] = .error .parseError := by
  have h1 : (attempt "(<T NP 0 1> (<T N 0 1> (<L N a b c d>) ) )".toList).2 = false := by decide +kernel
  have h2 : (attempt "(<T NP 0 1> (<T N 0 1> (<L N a b c d>)) )".toList).2 = false := by decide +kernel
  have h3 : (attempt "(<T NP 0 1> (<T N 0 1> (<L N a b c d>) ))".toList).2 = true := by decide +kernel
  simp only [sentences2trees, h1, h2, h3]
  simp

/-! ### Words -/

mutual
theorem tree_leaves (d : Deriv) (h : d.Ok) (t : CTree) (ht : d.tree = .ok t) : t.leafList.map Prod.fst = d.words.map unescape := by
  cases d with
  | leaf cat mod orig word pred =>
    rw [tree] at ht
    cases hb : bankType cat with
    | error e => rw [hb] at ht; simp at ht
    | ok ty =>
      rw [hb] at ht
      simp only [Except.ok.injEq] at ht
      subst ht
      simp [CTree.leafList, CTree.subtrees, CTree.subtreess, CTree.children, words, CTree.text]
  | node cat hd k ds =>
    rw [tree] at ht
    cases hb : bankType cat with
    | error e => rw [hb] at ht; simp at ht
    | ok ty =>
      rw [hb] at ht
      simp only at ht
      cases hk : trees ds with
      | error e => rw [hk] at ht; simp at ht
      | ok cs =>
        rw [hk] at ht
        simp only at ht
        cases hr : Rule.inferRule (cs.map CTree.ty) ty with
        | error e => rw [hr] at ht; simp at ht
        | ok r =>
          rw [hr] at ht
          simp only [CTree.mk, CTree.truthy, Bool.false_and, Bool.false_eq_true, if_false] at ht
          split_ifs at ht with hm
          simp only [Except.ok.injEq] at ht
          subst ht
          have hl := trees_leaves ds h.2.2 cs hk
          have hne : cs ≠ [] := by
            rintro rfl
            cases ds with
            | nil => exact h.2.1 rfl
            | cons d ds =>
              rw [trees] at hk
              cases hd : d.tree with
              | error e => rw [hd] at hk; simp at hk
              | ok t =>
                rw [hd] at hk; simp only at hk
                cases hds : trees ds <;> rw [hds] at hk <;> simp at hk
          have he : cs.isEmpty = false := by cases cs <;> simp_all
          rw [words, ← hl]
          simp [CTree.leafList, CTree.subtrees, CTree.children, he]
theorem trees_leaves (ds : List Deriv) (h : Oks ds) (ts : List CTree) (ht : trees ds = .ok ts) :
    ((CTree.subtreess ts).filter (fun s => s.children.isEmpty)).map (fun s => s.text) = (wordss ds).map unescape := by
  cases ds with
  | nil =>
    rw [trees] at ht
    simp only [Except.ok.injEq] at ht
    subst ht
    rfl
  | cons d ds =>
    rw [trees] at ht
    cases hd : d.tree with
    | error e => rw [hd] at ht; simp at ht
    | ok t =>
      rw [hd] at ht; simp only at ht
      cases hds : trees ds with
      | error e => rw [hds] at ht; simp at ht
      | ok us =>
        rw [hds] at ht
        simp only [Except.ok.injEq] at ht
        subst ht
        have h1 := tree_leaves d h.1 t hd
        have h2 := trees_leaves ds h.2 us hds
        rw [wordss, List.map_append, ← h1, ← h2]
        simp [CTree.leafList, CTree.subtreess]
end

/-- C94: the leaves of what is read are the words of the derivation, in their order, with brackets and braces instead of their codes. -/
theorem C94_words (d : Deriv) (h : d.Ok) (t : CTree) (ht : sentences2trees false false [d.print] = .ok [some t]) :
    t.leafList.map Prod.fst = d.words.map (fun w => if w = "-LCB-".toList then "{" else if w = "-RCB-".toList then "}" else
      if w = "-LRB-".toList then "(" else if w = "-RRB-".toList then ")" else String.ofList w) := by
  cases hd : d.tree with
  | error e => rw [(C94_fails d h e hd).2] at ht; simp at ht
  | ok u =>
    rw [(C94_roundtrip d h u hd false).1] at ht
    simp only [Except.ok.injEq, List.cons.injEq, Option.some.injEq, and_true] at ht
    subst ht
    exact tree_leaves d h u hd

/-! ### Sections -/

theorem print_strip (d : Deriv) (h : d.Ok) (w : List Char) (hw : ∀ c ∈ w, c.isWhitespace = true) : strip (d.print ++ w) = d.print := by
  have h1 : (d.print ++ w).dropWhile space = d.print ++ w := by
    obtain ⟨t, e⟩ := print_pos d
    rw [e, List.cons_append, List.dropWhile_cons_of_neg (by decide)]
  have h2 : ∃ t, d.print.reverse = ')' :: t := by
    cases d with
    | leaf => exact ⟨_, by rw [print]; simp; rfl⟩
    | node => exact ⟨_, by rw [print]; simp; rfl⟩
  obtain ⟨t, e⟩ := h2
  rw [strip, h1, List.reverse_append, List.dropWhile_append_of_pos (by
    intro c hc; exact hw c (List.mem_reverse.1 hc)), e, List.dropWhile_cons_of_neg (by decide), ← e, List.reverse_reverse]

theorem id_line (e : Entry) (h : e.Ok) : matchId (['I', 'D', '='] ++ e.id ++ e.more) = some e.id := by
  have hr := (run_take e.id e.more h.1.2 h.2.1).1
  have e1 : ['I', 'D', '='] ++ e.id ++ e.more = 'I' :: 'D' :: '=' :: (e.id ++ e.more) := by simp
  rw [e1]
  simp only [matchId]
  rw [hr, if_neg h.1.1]

theorem line_tree (suppress : Bool) (e : Entry) (h : e.Ok) (hs : suppress = true ∨ ∃ t, e.deriv.tree = .ok t) :
    lineTree suppress (e.deriv.print ++ e.trail) = .ok e.deriv.tree.toOption := by
  rw [lineTree, print_strip e.deriv h.2.2.1 e.trail h.2.2.2]
  cases ht : e.deriv.tree with
  | error x =>
    rw [(C94_fails e.deriv h.2.2.1 x ht).2]
    rcases hs with hs | ⟨t, hs⟩
    · simp [hs]; rfl
    · rw [ht] at hs; simp at hs
  | ok t =>
    rw [(C94_roundtrip e.deriv h.2.2.1 t ht false).1]
    rfl

theorem readFile_entries (suppress : Bool) (es : List Entry) (h : ∀ e ∈ es, e.Ok) (hs : suppress = true ∨ ∀ e ∈ es, ∃ t, e.deriv.tree = .ok t) :
    readFile suppress (es.flatMap Entry.lines) = (es.map (fun e => (e.id, e.deriv.tree.toOption)), none) := by
  induction es with
  | nil => rfl
  | cons e es ih =>
    have ih := ih (fun x hx => h x (List.mem_cons_of_mem _ hx)) (hs.imp id (fun g x hx => g x (List.mem_cons_of_mem _ hx)))
    have e1 : (e :: es).flatMap Entry.lines = (['I', 'D', '='] ++ e.id ++ e.more) :: (e.deriv.print ++ e.trail) :: es.flatMap Entry.lines := by
      rw [List.flatMap_cons, Entry.lines]; rfl
    rw [e1, readFile, id_line e (h e List.mem_cons_self)]
    simp only
    rw [line_tree suppress e (h e List.mem_cons_self) (hs.imp id (fun g => g e List.mem_cons_self))]
    simp only
    rw [ih]
    rfl

/-- C94: the files of a section are read entry by entry, in their order; a derivation that cannot be read has `None` if exceptions are suppressed. -/
theorem C94_section (suppress : Bool) (files : List (List Entry)) (h : ∀ f ∈ files, ∀ e ∈ f, e.Ok)
    (hs : suppress = true ∨ ∀ f ∈ files, ∀ e ∈ f, ∃ t, e.deriv.tree = .ok t) :
    readSection suppress (files.map (fun f => f.flatMap Entry.lines)) = (files.flatten.map (fun e => (e.id, e.deriv.tree.toOption)), none) := by
  induction files with
  | nil => rfl
  | cons f fs ih =>
    have ih := ih (fun x hx => h x (List.mem_cons_of_mem _ hx)) (hs.imp id (fun g x hx => g x (List.mem_cons_of_mem _ hx)))
    rw [List.map_cons, readSection, readFile_entries suppress f (h f List.mem_cons_self) (hs.imp id (fun g => g f List.mem_cons_self))]
    simp only
    rw [ih]
    simp

def exEntry : Entry := ⟨['w', 's', 'j', '_', '1'], [' ', 'P', 'A', 'R', 'S', 'E', 'R', '\n'], exDeriv, [' ', '\n']⟩

example : exEntry.Ok ∧ ∃ t, exEntry.deriv.tree = .ok t :=
  ⟨⟨by simp only [Field]; decide, by decide, exDeriv_ok, by decide⟩, _, exDeriv_tree⟩

/-- C94: where the IDs of a section differ, each has its tree in the dictionary, and nothing else is in it. -/
theorem C94_dictionary (suppress : Bool) (files : List (List Entry)) (h : ∀ f ∈ files, ∀ e ∈ f, e.Ok)
    (hs : suppress = true ∨ ∀ f ∈ files, ∀ e ∈ f, ∃ t, e.deriv.tree = .ok t) (hd : (files.flatten.map Entry.id).Nodup) :
    ∃ dict, section2trees suppress (files.map (fun f => f.flatMap Entry.lines)) = .ok dict ∧
      ∀ k v, dict k = some v ↔ ∃ e ∈ files.flatten, e.id = k ∧ v = e.deriv.tree.toOption := by
  rw [section2trees, C94_section suppress files h hs]
  refine ⟨_, rfl, ?_⟩
  intro k v
  generalize files.flatten = es at hd
  constructor
  · intro hv
    simp only [Option.map_eq_some_iff] at hv
    obtain ⟨p, hp, rfl⟩ := hv
    have hm := List.mem_of_find?_eq_some hp
    have hk : p.1 = k := by simpa using List.find?_some hp
    rw [List.mem_reverse] at hm
    obtain ⟨e, he, rfl⟩ := List.mem_map.1 hm
    exact ⟨e, he, hk, rfl⟩
  · rintro ⟨e, he, rfl, rfl⟩
    cases hf : (es.map (fun e => (e.id, e.deriv.tree.toOption))).reverse.find? (fun p => p.1 == e.id) with
    | none =>
      rw [List.find?_eq_none] at hf
      have := hf (e.id, e.deriv.tree.toOption) (List.mem_reverse.2 (List.mem_map.2 ⟨e, he, rfl⟩))
      simp at this
    | some p =>
      have hm := List.mem_of_find?_eq_some hf
      have hk : p.1 = e.id := by simpa using List.find?_some hf
      rw [List.mem_reverse] at hm
      obtain ⟨e', he', rfl⟩ := List.mem_map.1 hm
      have : e' = e := List.inj_on_of_nodup_map hd he' he hk
      subst this
      rfl

/-- C94, refuted: an ID on the last line of a file raises `RuntimeError`, whether exceptions are suppressed or not. -/
theorem C94_refuted_end_of_file (suppress : Bool) (e : Entry) (h : e.Ok) : readFile suppress [['I', 'D', '='] ++ e.id ++ e.more] = ([], some .runtimeError) := by
  rw [readFile, id_line e h]

/-- C94: with exceptions suppressed nothing else is raised, whatever is in the files. -/
theorem C94_suppressed (files : List (List (List Char))) : (readSection true files).2 = none ∨ (readSection true files).2 = some .runtimeError := by
  have hf : ∀ n, ∀ ls : List (List Char), ls.length ≤ n → (readFile true ls).2 = none ∨ (readFile true ls).2 = some .runtimeError := by
    intro n
    induction n with
    | zero =>
      intro ls hl
      cases ls with
      | nil => exact .inl rfl
      | cons l ls => simp at hl
    | succ n ih =>
      intro ls hl
      cases ls with
      | nil => exact .inl rfl
      | cons l ls =>
        simp only [List.length_cons] at hl
        rw [readFile]
        cases matchId l with
        | none => simpa using ih ls (by omega)
        | some i =>
          cases ls with
          | nil => exact .inr rfl
          | cons l' rest =>
            simp only [List.length_cons] at hl
            simp only
            have : ∃ t, lineTree true l' = .ok t := by
              rw [lineTree]
              cases sentences2trees false false [strip l'] with
              | error e => exact ⟨none, rfl⟩
              | ok ts => exact ⟨_, rfl⟩
            obtain ⟨t, ht⟩ := this
            rw [ht]
            exact ih rest (by omega)
  induction files with
  | nil => exact .inl rfl
  | cons f fs ih =>
    rw [readSection]
    rcases hf _ f (Nat.le_refl _) with h | h
    · rw [h]; exact ih
    · rw [h]; exact .inr rfl

/-- C94: a batch said to be tokenised raises `ValueError`, unless it is empty. -/
theorem C94_tokenised (suppress : Bool) (ss : List (List Char)) : sentences2trees true suppress ss = if ss = [] then .ok [] else .error .valueError := by
  cases ss <;> simp [sentences2trees]

/-- C94: without suppression, the first entry of a section that cannot be read ends the generator, after the entries before it. -/
theorem C94_section_raises (files : List (List Entry)) (es : List Entry) (bad : Entry) (rest : List (List Char)) (more : List (List (List Char)))
    (h : ∀ f ∈ files, ∀ e ∈ f, e.Ok ∧ ∃ t, e.deriv.tree = .ok t) (hes : ∀ e ∈ es, e.Ok ∧ ∃ t, e.deriv.tree = .ok t) (hb : bad.Ok) (x : PyErr) (hx : bad.deriv.tree = .error x) :
    readSection false (files.map (fun f => f.flatMap Entry.lines) ++ (es.flatMap Entry.lines ++ bad.lines ++ rest) :: more) =
      ((files.flatten ++ es).map (fun e => (e.id, e.deriv.tree.toOption)), some .parseError) := by
  have hfile : readFile false (es.flatMap Entry.lines ++ bad.lines ++ rest) = (es.map (fun e => (e.id, e.deriv.tree.toOption)), some .parseError) := by
    induction es with
    | nil =>
      rw [List.flatMap_nil, List.nil_append, Entry.lines]
      simp only [List.cons_append, List.nil_append]
      rw [readFile, show 'I' :: 'D' :: '=' :: (bad.id ++ bad.more) = ['I', 'D', '='] ++ bad.id ++ bad.more by simp, id_line bad hb]
      simp only
      rw [lineTree, print_strip bad.deriv hb.2.2.1 bad.trail hb.2.2.2, (C94_fails bad.deriv hb.2.2.1 x hx).2]
      rfl
    | cons e es ih =>
      have ih := ih (fun y hy => hes y (List.mem_cons_of_mem _ hy))
      obtain ⟨ho, ht⟩ := hes e List.mem_cons_self
      have e1 : (e :: es).flatMap Entry.lines ++ bad.lines ++ rest = (['I', 'D', '='] ++ e.id ++ e.more) :: (e.deriv.print ++ e.trail) :: (es.flatMap Entry.lines ++ bad.lines ++ rest) := by
        rw [List.flatMap_cons, Entry.lines]; simp
      rw [e1, readFile, id_line e ho]
      simp only
      rw [line_tree false e ho (.inr ht)]
      simp only
      rw [ih]
      rfl
  induction files with
  | nil =>
    simp only [List.map_nil, List.nil_append, List.flatten_nil]
    rw [readSection, hfile]
  | cons f fs ih =>
    have ih := ih (fun y hy => h y (List.mem_cons_of_mem _ hy))
    rw [List.map_cons, List.cons_append, readSection,
      readFile_entries false f (fun e he => (h f List.mem_cons_self e he).1) (.inr (fun e he => (h f List.mem_cons_self e he).2))]
    simp only
    rw [ih]
    simp

example : let bad : Entry := ⟨['i'], [], .leaf ['X'] ['a'] ['b'] ['c'] ['d'], []⟩
    bad.Ok ∧ bad.deriv.tree = .error .parseError ∧ exEntry.Ok ∧ ∃ t, exEntry.deriv.tree = .ok t := by
  have h1 : bankType ['X'] = .error .parseError := by decide +kernel
  refine ⟨⟨by simp only [Field]; decide, by decide, by simp only [Ok, Field]; decide, by decide⟩, ?_, ⟨by simp only [Field]; decide, by decide, exDeriv_ok, by decide⟩, _, exDeriv_tree⟩
  simp [tree, h1]

/-- A feature: nothing, or lower-case letters (at least one) in square brackets. -/
def Feature (f : List Char) : Prop := f = [] ∨ ∃ x, x ≠ [] ∧ (∀ c ∈ x, 'a' ≤ c ∧ c ≤ 'z') ∧ f = '[' :: (x ++ [']'])

/-- The names of the atomic categories of CCGBank. -/
inductive AtomName : List Char → String → Prop
  | n {f} : Feature f → AtomName ('N' :: f) "n"
  | np {f} : Feature f → AtomName ('N' :: 'P' :: f) "np"
  | s {f} : Feature f → AtomName ('S' :: f) "s"
  | pp {f} : Feature f → AtomName ('P' :: 'P' :: f) "p"
  | conj : AtomName ['c', 'o', 'n', 'j'] "conj"
  | punc {w} : w ∈ [['L', 'R', 'B'], ['R', 'R', 'B'], [','], ['.'], [':'], [';']] → AtomName w "punc"

theorem isFeature_iff (f : List Char) : isFeature f = true ↔ Feature f := by
  unfold isFeature Feature
  split
  · simp
  · rename_i t
    simp only [Bool.and_eq_true, beq_iff_eq, bne_iff_ne, ne_eq, List.all_eq_true, decide_eq_true_eq, reduceCtorEq, false_or, List.cons.injEq, true_and]
    constructor
    · rintro ⟨⟨h1, h2⟩, h3⟩
      exact ⟨t.dropLast, h2, h3, (List.dropLast_append_getLast? _ h1).symm⟩
    · rintro ⟨x, h1, h2, rfl⟩
      simp [h1]
      exact h2
  · rename_i h1 h2
    constructor
    · simp
    · rintro (rfl | ⟨x, _, _, rfl⟩)
      · exact absurd rfl h1
      · exact absurd rfl (h2 _)

/-- C94: which atomic categories are read, and what they become. -/
theorem C94_atomic (s : List Char) (r : String) : mapAtomic s = some r ↔ AtomName s r := by
  classical
  have hf : ∀ c f, c ≠ '[' → ¬ Feature (c :: f) := by
    rintro c f hc (h | ⟨x, _, _, h⟩)
    · cases h
    · rw [List.cons.injEq] at h; exact hc h.1
  have key : ∀ s, bareCat s = if ∃ f, s = 'N' :: f ∧ Feature f then some ['N'] else if ∃ f, s = 'N' :: 'P' :: f ∧ Feature f then some ['N', 'P'] else
      if ∃ f, s = 'S' :: f ∧ Feature f then some ['S'] else if ∃ f, s = 'P' :: 'P' :: f ∧ Feature f then some ['P', 'P'] else none := by
    intro s
    have h1 : ∀ b : List Char, (b.isPrefixOf s && isFeature (s.drop b.length)) = true ↔ ∃ f, s = b ++ f ∧ Feature f := by
      intro b
      rw [Bool.and_eq_true, List.isPrefixOf_iff_prefix, isFeature_iff]
      constructor
      · rintro ⟨⟨f, rfl⟩, h⟩
        exact ⟨f, rfl, by simpa using h⟩
      · rintro ⟨f, rfl, h⟩
        exact ⟨⟨f, rfl⟩, by simpa using h⟩
    unfold bareCat
    simp only [List.find?_cons, List.find?_nil]
    have a1 := h1 ['N']; have a2 := h1 ['N', 'P']; have a3 := h1 ['S']; have a4 := h1 ['P', 'P']
    simp only [List.cons_append, List.nil_append] at a1 a2 a3 a4
    by_cases c1 : ∃ f, s = 'N' :: f ∧ Feature f
    · rw [if_pos c1, a1.2 c1]
    · rw [if_neg c1, Bool.eq_false_iff.2 (fun h => c1 (a1.1 h))]
      simp only
      by_cases c2 : ∃ f, s = 'N' :: 'P' :: f ∧ Feature f
      · rw [if_pos c2, a2.2 c2]
      · rw [if_neg c2, Bool.eq_false_iff.2 (fun h => c2 (a2.1 h))]
        simp only
        by_cases c3 : ∃ f, s = 'S' :: f ∧ Feature f
        · rw [if_pos c3, a3.2 c3]
        · rw [if_neg c3, Bool.eq_false_iff.2 (fun h => c3 (a3.1 h))]
          simp only
          by_cases c4 : ∃ f, s = 'P' :: 'P' :: f ∧ Feature f
          · rw [if_pos c4, a4.2 c4]
          · rw [if_neg c4, Bool.eq_false_iff.2 (fun h => c4 (a4.1 h))]
  have hno : ∀ f, ¬ ∃ g, 'N' :: 'P' :: f = 'N' :: g ∧ Feature g := by
    rintro f ⟨g, h, hg⟩
    rw [List.cons.injEq] at h
    rw [← h.2] at hg
    exact hf _ _ (by decide) hg
  constructor
  · intro h
    unfold mapAtomic at h
    rw [key] at h
    split at h
    · rename_i b hb
      split at hb
      · rename_i hc
        obtain ⟨f, rfl, hc⟩ := hc
        cases hb; cases h; exact .n hc
      split at hb
      · rename_i hc
        obtain ⟨f, rfl, hc⟩ := hc
        cases hb; cases h; exact .np hc
      split at hb
      · rename_i hc
        obtain ⟨f, rfl, hc⟩ := hc
        cases hb; cases h; exact .s hc
      split at hb
      · rename_i hc
        obtain ⟨f, rfl, hc⟩ := hc
        cases hb; cases h; exact .pp hc
      · cases hb
    · split at h
      · rename_i e
        cases h; rw [e]; exact .conj
      split at h
      · rename_i e
        cases h; exact .punc (by simpa using e)
      · cases h
  · intro h
    unfold mapAtomic
    rw [key]
    cases h with
    | @n f hh => rw [if_pos ⟨f, rfl, hh⟩]; rfl
    | @np f hh => rw [if_neg (hno f), if_pos ⟨f, rfl, hh⟩]; rfl
    | @s f hh => rw [if_neg (by rintro ⟨g, h, _⟩; cases h), if_neg (by rintro ⟨g, h, _⟩; cases h), if_pos ⟨f, rfl, hh⟩]; rfl
    | @pp f hh => rw [if_neg (by rintro ⟨g, h, _⟩; cases h), if_neg (by rintro ⟨g, h, _⟩; cases h), if_neg (by rintro ⟨g, h, _⟩; cases h), if_pos ⟨f, rfl, hh⟩]; rfl
    | conj => rw [if_neg (by rintro ⟨g, h, _⟩; cases h), if_neg (by rintro ⟨g, h, _⟩; cases h), if_neg (by rintro ⟨g, h, _⟩; cases h), if_neg (by rintro ⟨g, h, _⟩; cases h)]; rfl
    | punc hw =>
      simp only [List.mem_cons, List.not_mem_nil, or_false] at hw
      rcases hw with rfl | rfl | rfl | rfl | rfl | rfl <;>
        (rw [if_neg (by rintro ⟨g, h, _⟩; cases h), if_neg (by rintro ⟨g, h, _⟩; cases h), if_neg (by rintro ⟨g, h, _⟩; cases h), if_neg (by rintro ⟨g, h, _⟩; cases h)]; rfl)

example : AtomName ['S', '[', 'd', 'c', 'l', ']'] "s" := .s (.inr ⟨['d', 'c', 'l'], by decide, by decide, rfl⟩)

end Bank
end Lambeq
