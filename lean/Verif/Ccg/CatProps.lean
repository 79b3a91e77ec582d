import Verif.Ccg.Cat
import Verif.Grammar.TyProps

/-!
# C27: the category parser accepts exactly the documented grammar; printing round-trips
-/

namespace Lambeq
namespace Cat
set_option linter.unusedSimpArgs false

/-! ## Specification: the grammar of the docstring of `CCGType.parse` (ccg_type.py:270-278) -/

/-- A legal atomic name: at least one character, none of `( ) / \`. -/
def AtomChars (s : List Char) : Prop := s ≠ [] ∧ ∀ c ∈ s, c ≠ '(' ∧ c ≠ ')' ∧ c ≠ '/' ∧ c ≠ '\\'

/-- `bracket_cat = atomic_cat | "(" bracket_cat [ op bracket_cat ] ")"`, with its meaning. -/
inductive Bracketed (f : String → String) : List Char → Cat → Prop
  | atom (s : List Char) (h : AtomChars s) : Bracketed f s (.atom (f (String.ofList s)))
  | group {s : List Char} {t : Cat} (h : Bracketed f s t) : Bracketed f ('(' :: s ++ [')']) t
  | over {s s' : List Char} {t t' : Cat} (h : Bracketed f s t) (h' : Bracketed f s' t') :
      Bracketed f ('(' :: (s ++ '/' :: s') ++ [')']) (.over t t')
  | under {s s' : List Char} {t t' : Cat} (h : Bracketed f s t) (h' : Bracketed f s' t') :
      Bracketed f ('(' :: (s ++ '\\' :: s') ++ [')']) (.under t t')

/-- `bracket_cat [ op bracket_cat ]` -/
inductive Compound (f : String → String) : List Char → Cat → Prop
  | single {s : List Char} {t : Cat} (h : Bracketed f s t) : Compound f s t
  | over {s s' : List Char} {t t' : Cat} (h : Bracketed f s t) (h' : Bracketed f s' t') :
      Compound f (s ++ '/' :: s') (.over t t')
  | under {s s' : List Char} {t t' : Cat} (h : Bracketed f s t) (h' : Bracketed f s' t') :
      Compound f (s ++ '\\' :: s') (.under t t')

/-- `cat = bracket_cat [ op bracket_cat ] [ "[conj]" ]`, where a final `[conj]` is always read as the
tag (never as part of an atomic name), and `C[conj]` means `C\C` (ccg_type.py:301-312). -/
inductive Denotes (f : String → String) : List Char → Cat → Prop
  | plain {s : List Char} {t : Cat} (h : Compound f s t) (hc : ¬ "[conj]".toList <:+ s) : Denotes f s t
  | conj {s : List Char} {t : Cat} (h : Compound f s t) :
      Denotes f (s ++ "[conj]".toList) (.under t t)

/-! ## Proofs -/

theorem scanAtom_sound : ∀ (s a rest : List Char), scanAtom s = .ok (a, rest) →
    s = a ++ rest ∧ (∀ c ∈ a, c ≠ '(' ∧ c ≠ ')' ∧ c ≠ '/' ∧ c ≠ '\\') ∧
    (∀ c cs, rest = c :: cs → isStop c = true)
  | [], a, rest, h => by
      simp only [scanAtom, Except.ok.injEq, Prod.mk.injEq] at h
      obtain ⟨rfl, rfl⟩ := h
      simp
  | c :: cs, a, rest, h => by
      rw [scanAtom] at h
      split at h
      · next hc =>
        simp only [Except.ok.injEq, Prod.mk.injEq] at h
        obtain ⟨rfl, rfl⟩ := h
        refine ⟨rfl, by simp, ?_⟩
        intro c' cs' he
        simp only [List.cons.injEq] at he
        rw [← he.1]; exact hc
      · next hc =>
        split at h
        · simp at h
        · next hp =>
          split at h
          · next a' rest' hs =>
            simp only [Except.ok.injEq, Prod.mk.injEq] at h
            obtain ⟨rfl, rfl⟩ := h
            obtain ⟨h1, h2, h3⟩ := scanAtom_sound cs a' rest' hs
            refine ⟨by rw [h1]; rfl, ?_, h3⟩
            intro x hx
            rcases List.mem_cons.1 hx with rfl | hx
            · simp only [isStop, Bool.or_eq_true, beq_iff_eq, not_or] at hc
              simp only [beq_iff_eq] at hp
              exact ⟨hp, hc.2, hc.1.1, hc.1.2⟩
            · exact h2 x hx
          · simp at h

theorem scanAtom_complete : ∀ (a rest : List Char), (∀ c ∈ a, c ≠ '(' ∧ c ≠ ')' ∧ c ≠ '/' ∧ c ≠ '\\') →
    (∀ c cs, rest = c :: cs → isStop c = true) → scanAtom (a ++ rest) = .ok (a, rest)
  | [], [], _, _ => rfl
  | [], c :: cs, _, h => by
      rw [List.nil_append, scanAtom, if_pos (h c cs rfl)]
  | x :: a, rest, ha, h => by
      have hx := ha x (by simp)
      rw [List.cons_append, scanAtom, if_neg (by simp [isStop, hx]), if_neg (by simp [hx]),
        scanAtom_complete a rest (fun c hc => ha c (List.mem_cons_of_mem _ hc)) h]

theorem scanAtom_err : ∀ (s : List Char) (e : PyErr), scanAtom s = .error e → e = .parseError
  | [], e, h => by simp [scanAtom] at h
  | c :: cs, e, h => by
      rw [scanAtom] at h
      split at h
      · simp at h
      · split at h
        · simp only [Except.error.injEq] at h; exact h.symm
        · split at h
          · simp at h
          · next e' hs =>
            simp only [Except.error.injEq] at h
            subst h; exact scanAtom_err cs _ hs

theorem compound_of_op (f : String → String) {op : Char} {s s' : List Char} {t t' : Cat}
    (ho : isOp op = true) (h : Bracketed f s t) (h' : Bracketed f s' t') :
    Compound f (s ++ op :: s') (slash t (op == '/') t') := by
  simp only [isOp, Bool.or_eq_true, beq_iff_eq] at ho
  rcases ho with rfl | rfl
  · exact .over h h'
  · exact .under h h'

theorem bracketed_of_compound (f : String → String) {s : List Char} {t : Cat} (h : Compound f s t) :
    Bracketed f ('(' :: s ++ [')']) t := by
  cases h with
  | single h => exact .group h
  | over h h' => exact .over h h'
  | under h h' => exact .under h h'

theorem bracketed_ne_nil {f : String → String} {s : List Char} {t : Cat} (h : Bracketed f s t) : s ≠ [] := by
  cases h <;> simp_all [AtomChars]

theorem parse_sound (f : String → String) : ∀ n,
    (∀ s t rest, parseClean f n s = .ok (t, rest) → ∃ p, s = p ++ rest ∧ Bracketed f p t) ∧
    (∀ s t rest, parseCompound f n s = .ok (t, rest) → ∃ p, s = p ++ rest ∧ Compound f p t)
  | 0 => by constructor <;> intro s t rest h <;> simp [parseClean, parseCompound] at h
  | n + 1 => by
      obtain ⟨ih1, ih2⟩ := parse_sound f n
      constructor
      · intro s t rest h
        cases s with
        | nil => simp [parseClean] at h
        | cons c cs =>
          rw [parseClean] at h
          split at h
          · split at h
            · simp at h
            · next hp hstop =>
              split at h
              · simp at h
              · next a rest' hs =>
                simp only [Except.ok.injEq, Prod.mk.injEq] at h
                obtain ⟨rfl, rfl⟩ := h
                obtain ⟨h1, h2, h3⟩ := scanAtom_sound _ _ _ hs
                refine ⟨a, h1, .atom a ⟨?_, h2⟩⟩
                rintro rfl
                exact hstop (h3 c cs h1.symm)
          · next hp =>
            have hp : c = '(' := by simpa using hp
            split at h
            · simp at h
            · simp at h
            · next t' d rest' hs =>
              split at h
              · next hd =>
                simp only [Except.ok.injEq, Prod.mk.injEq] at h
                obtain ⟨rfl, rfl⟩ := h
                obtain ⟨p, h1, h2⟩ := ih2 _ _ _ hs
                have hd : d = ')' := by simpa using hd
                refine ⟨'(' :: p ++ [')'], ?_, bracketed_of_compound f h2⟩
                rw [h1, hp, hd]; simp
              · simp at h
      · intro s t rest h
        rw [parseCompound] at h
        split at h
        · simp at h
        · next t' hs =>
          simp only [Except.ok.injEq, Prod.mk.injEq] at h
          obtain ⟨rfl, rfl⟩ := h
          obtain ⟨p, h1, h2⟩ := ih1 _ _ _ hs
          exact ⟨p, h1, .single h2⟩
        · next t' op rest' hs =>
          obtain ⟨p, h1, h2⟩ := ih1 _ _ _ hs
          split at h
          · next ho =>
            split at h
            · simp at h
            · next a rest'' hs' =>
              simp only [Except.ok.injEq, Prod.mk.injEq] at h
              obtain ⟨rfl, rfl⟩ := h
              obtain ⟨p', h1', h2'⟩ := ih1 _ _ _ hs'
              exact ⟨p ++ op :: p', by rw [h1, h1']; simp, compound_of_op f ho h2 h2'⟩
          · simp only [Except.ok.injEq, Prod.mk.injEq] at h
            obtain ⟨rfl, rfl⟩ := h
            exact ⟨p, h1, .single h2⟩

/-- Helper: from completeness for brackets to completeness for compounds. -/
theorem compound_step (f : String → String) (n : Nat)
    (ih : ∀ s t, Bracketed f s t → 2 * s.length ≤ n → ∀ rest, (∀ c cs, rest = c :: cs → isStop c = true) →
      parseClean f n (s ++ rest) = .ok (t, rest))
    {s : List Char} {t : Cat} (h : Compound f s t) (hn : 2 * s.length ≤ n) (rest : List Char)
    (hr : ∀ c cs, rest = c :: cs → c = ')') : parseCompound f (n + 1) (s ++ rest) = .ok (t, rest) := by
  have hstop : ∀ c cs, rest = c :: cs → isStop c = true := by
    intro c cs he; rw [hr c cs he]; rfl
  have key : ∀ (s s' : List Char) (t t' : Cat) (op : Char), isOp op = true → Bracketed f s t →
      Bracketed f s' t' → 2 * (s ++ op :: s').length ≤ n →
      parseCompound f (n + 1) (s ++ op :: s' ++ rest) = .ok (slash t (op == '/') t', rest) := by
    intro s s' t t' op ho h h' hn
    simp only [List.length_append, List.length_cons] at hn
    have e : s ++ op :: s' ++ rest = s ++ (op :: (s' ++ rest)) := by simp
    rw [parseCompound, e, ih s t h (by omega) _ (by
      intro c cs he
      simp only [List.cons.injEq] at he
      rw [← he.1]
      simp only [isOp, Bool.or_eq_true, beq_iff_eq] at ho
      rcases ho with rfl | rfl <;> rfl)]
    simp only [ho, if_true]
    rw [ih s' t' h' (by omega) rest hstop]
  cases h with
  | single h =>
    rw [parseCompound, ih s t h hn rest hstop]
    cases rest with
    | nil => rfl
    | cons c cs =>
      have := hr c cs rfl
      subst this
      simp [isOp]
  | over h h' => exact key _ _ _ _ '/' rfl h h' hn
  | under h h' => exact key _ _ _ _ '\\' rfl h h' hn

theorem parseClean_complete (f : String → String) : ∀ (n : Nat) (s : List Char) (t : Cat), Bracketed f s t →
    2 * s.length ≤ n → ∀ rest, (∀ c cs, rest = c :: cs → isStop c = true) →
    parseClean f n (s ++ rest) = .ok (t, rest) := by
  intro n
  induction n using Nat.strongRecOn with
  | ind n ih =>
    intro s t h hn rest hr
    have hne := bracketed_ne_nil h
    have hgrp : ∀ (s0 : List Char) (t0 : Cat), Compound f s0 t0 → 2 * ('(' :: s0 ++ [')']).length ≤ n →
        parseClean f n ('(' :: s0 ++ [')'] ++ rest) = .ok (t0, rest) := by
      intro s0 t0 hc hn
      obtain ⟨m, rfl⟩ : ∃ m, n = m + 2 := ⟨n - 2, by simp at hn; omega⟩
      simp only [List.length_append, List.length_cons, List.length_nil] at hn
      have := compound_step f m (ih m (by omega)) hc (by omega) (')' :: rest) (by
        intro c cs he; simp only [List.cons.injEq] at he; exact he.1.symm)
      have e : '(' :: s0 ++ [')'] ++ rest = '(' :: (s0 ++ ')' :: rest) := by simp
      rw [e, parseClean, if_neg (by simp), this]
      simp
    cases h with
    | atom s hs =>
      obtain ⟨m, rfl⟩ : ∃ m, n = m + 1 := ⟨n - 1, by
        have := List.length_pos_iff.2 hne; omega⟩
      cases s with
      | nil => exact absurd rfl hne
      | cons c cs =>
        have hc := hs.2 c (by simp)
        have := scanAtom_complete (c :: cs) rest hs.2 hr
        rw [List.cons_append, parseClean, if_pos (by simp [hc]), if_neg (by simp [isStop, hc]),
          ← List.cons_append, this]
    | group h => exact hgrp _ _ (.single h) hn
    | over h h' => exact hgrp _ _ (.over h h') hn
    | under h h' => exact hgrp _ _ (.under h h') hn

theorem parseCompound_complete (f : String → String) {s : List Char} {t : Cat} (h : Compound f s t)
    (n : Nat) (hn : 2 * s.length ≤ n) : parseCompound f (n + 1) s = .ok (t, []) := by
  have := compound_step f n (parseClean_complete f n) h hn [] (by simp)
  simpa using this

/-- Only `CCGParseError` and `AssertionError` come out of the parser, when there is fuel. -/
theorem parse_err (f : String → String) : ∀ n,
    (∀ s e, 2 * s.length < n → parseClean f n s = .error e → e = .parseError ∨ e = .assertionError) ∧
    (∀ s e, 2 * s.length + 1 < n → parseCompound f n s = .error e → e = .parseError ∨ e = .assertionError)
  | 0 => by constructor <;> intro s e hn h <;> omega
  | n + 1 => by
      obtain ⟨ih1, ih2⟩ := parse_err f n
      constructor
      · intro s e hn h
        cases s with
        | nil => simp [parseClean] at h; exact .inl h.symm
        | cons c cs =>
          rw [parseClean] at h
          simp only [List.length_cons] at hn
          split at h
          · split at h
            · simp only [Except.error.injEq] at h; exact .inl h.symm
            · split at h
              · next e' hs =>
                simp only [Except.error.injEq] at h
                subst h
                exact .inl (scanAtom_err _ _ hs)
              · simp at h
          · split at h
            · next e' hs =>
              simp only [Except.error.injEq] at h
              subst h
              exact ih2 _ _ (by omega) hs
            · simp only [Except.error.injEq] at h; exact .inl h.symm
            · split at h
              · simp at h
              · simp only [Except.error.injEq] at h; exact .inr h.symm
      · intro s e hn h
        rw [parseCompound] at h
        split at h
        · next e' hs =>
          simp only [Except.error.injEq] at h
          subst h
          exact ih1 _ _ (by omega) hs
        · simp at h
        · next t' op rest' hs =>
          split at h
          · split at h
            · next e' hs' =>
              simp only [Except.error.injEq] at h
              subst h
              obtain ⟨p, h1, h2⟩ := (parse_sound f n).1 _ _ _ hs
              have := congrArg List.length h1
              simp only [List.length_append, List.length_cons] at this
              exact ih1 _ _ (by omega) hs'
            · simp at h
          · simp at h

theorem take_of_suffix {a b : List Char} : (a ++ b).take ((a ++ b).length - b.length) = a := by
  simp

/-- **C27**: for every string, `parse` returns category `t` exactly when the documented grammar derives
the string with meaning `t`. -/
theorem C27_parse_iff_grammar (f : String → String) (s : List Char) (t : Cat) :
    parse f s = .ok t ↔ Denotes f s t := by
  have htag : conjTag.length = 6 := by decide
  constructor
  · intro h
    simp only [parse] at h
    by_cases hc : conjTag.isSuffixOf s = true
    · obtain ⟨p, hp⟩ := List.isSuffixOf_iff_suffix.1 hc
      simp only [hc, if_true] at h
      have e : s.take (s.length - 6) = p := by
        rw [← hp, ← htag]; exact take_of_suffix
      rw [e] at h
      split at h
      · simp at h
      · next t' extra hs =>
        split at h
        · next hx =>
          simp only [Except.ok.injEq] at h
          subst h
          obtain ⟨q, h1, h2⟩ := (parse_sound f _).2 _ _ _ hs
          have hx : extra = [] := by simpa using hx
          rw [hx, List.append_nil] at h1
          rw [← hp, h1]
          exact .conj h2
        · simp at h
    · have hc' : conjTag.isSuffixOf s = false := by
        cases hb : conjTag.isSuffixOf s with
        | false => rfl
        | true => exact absurd hb hc
      simp only [hc', Bool.false_eq_true, if_false] at h
      split at h
      · simp at h
      · next t' extra hs =>
        split at h
        · next hx =>
          simp only [Except.ok.injEq] at h
          subst h
          obtain ⟨q, h1, h2⟩ := (parse_sound f _).2 _ _ _ hs
          have hx : extra = [] := by simpa using hx
          rw [hx, List.append_nil] at h1
          rw [h1]
          refine .plain h2 ?_
          rw [← h1]
          intro hh
          exact hc (List.isSuffixOf_iff_suffix.2 hh)
        · simp at h
  · intro h
    cases h with
    | plain h hc =>
      have hc' : conjTag.isSuffixOf s = false := by
        cases hb : conjTag.isSuffixOf s with
        | false => rfl
        | true => exact absurd (List.isSuffixOf_iff_suffix.1 hb) hc
      simp only [parse, hc', Bool.false_eq_true, if_false]
      rw [parseCompound_complete f h _ (by omega)]
      rfl
    | @conj p t h =>
      have hc' : conjTag.isSuffixOf (p ++ "[conj]".toList) = true :=
        List.isSuffixOf_iff_suffix.2 ⟨p, rfl⟩
      simp only [parse, hc', if_true]
      have e : (p ++ "[conj]".toList).take ((p ++ "[conj]".toList).length - 6) = p := by
        rw [← htag]; exact take_of_suffix
      rw [e, parseCompound_complete f h _ (by omega)]
      rfl

/-- **C27**: every string is answered; a string outside the grammar raises `CCGParseError` or an
`AssertionError`, and nothing else. -/
theorem C27_parse_total (f : String → String) (s : List Char) :
    (∃ t, parse f s = .ok t ∧ Denotes f s t) ∨
    ((∀ t, ¬ Denotes f s t) ∧ (parse f s = .error .parseError ∨ parse f s = .error .assertionError)) := by
  cases h : parse f s with
  | ok t => exact .inl ⟨t, rfl, (C27_parse_iff_grammar f s t).1 h⟩
  | error e =>
    right
    refine ⟨fun t ht => ?_, ?_⟩
    · rw [(C27_parse_iff_grammar f s t).2 ht] at h; simp at h
    · simp only [parse] at h
      generalize hcl : (if conjTag.isSuffixOf s = true then s.take (s.length - 6) else s) = cl at h
      split at h
      · next e' hs =>
        simp only [Except.error.injEq] at h
        subst h
        rcases (parse_err f _).2 _ _ (by omega) hs with rfl | rfl <;> simp
      · split at h
        · simp at h
        · simp only [Except.error.injEq] at h
          subst h; simp

/-! ## Round trip -/

/-- No empty subcategory, and every atomic name is one that the grammar can read back: non-empty, free
of `( ) / \`, not ending in the conjunction tag. -/
def Printable : Cat → Prop
  | empty => False
  | atom n => AtomChars n.toList ∧ ¬ "[conj]".toList <:+ n.toList
  | over x y => x.Printable ∧ y.Printable
  | under x y => x.Printable ∧ y.Printable

theorem toStr_compound : ∀ {t : Cat}, t.Printable → Compound _root_.id t.toStr t ∧
    Bracketed _root_.id (wrap t t.toStr) t
  | empty, h => h.elim
  | atom n, h => by
      have hb : Bracketed _root_.id n.toList (.atom n) := by
        have := Bracketed.atom (f := _root_.id) n.toList h.1
        simpa using this
      exact ⟨.single hb, hb⟩
  | over x y, h => by
      have hc : Compound _root_.id (toStr (.over x y)) (.over x y) :=
        .over (toStr_compound h.1).2 (toStr_compound h.2).2
      exact ⟨hc, bracketed_of_compound _ hc⟩
  | under x y, h => by
      have hc : Compound _root_.id (toStr (.under x y)) (.under x y) :=
        .under (toStr_compound h.1).2 (toStr_compound h.2).2
      exact ⟨hc, bracketed_of_compound _ hc⟩

theorem suffix_after {p s x : List Char} {c : Char} (h : s <:+ p ++ c :: x) (hc : c ∉ s) : s <:+ x := by
  rcases List.suffix_or_suffix_of_suffix h (List.suffix_append p (c :: x)) with h1 | h1
  · rcases List.suffix_cons_iff.1 h1 with h2 | h2
    · exact absurd (by rw [h2]; simp) hc
    · exact h2
  · exact absurd (h1.subset (by simp)) hc

theorem wrap_no_tag {t : Cat} (ih : ¬ conjTag <:+ t.toStr) : ¬ conjTag <:+ wrap t t.toStr := by
  unfold wrap
  split
  · intro hs
    have := suffix_after (p := '(' :: t.toStr) (x := []) (c := ')') (by simpa using hs) (by decide)
    simp [conjTag] at this
  · exact ih

theorem toStr_no_tag : ∀ {t : Cat}, t.Printable → ¬ conjTag <:+ t.toStr
  | empty, h => h.elim
  | atom n, h => h.2
  | over x y, h => fun hs => wrap_no_tag (toStr_no_tag h.2) (suffix_after hs (by decide))
  | under x y, h => fun hs => wrap_no_tag (toStr_no_tag h.2) (suffix_after hs (by decide))

/-- **C27**: `CCGType.parse(str(t)) == t`, for every category without empty parts whose names are
legal, at every nesting depth. -/
theorem C27_roundtrip (t : Cat) (h : t.Printable) : parse _root_.id t.toStr = .ok t :=
  (C27_parse_iff_grammar _ _ _).2 (.plain (toStr_compound h).1 (toStr_no_tag h))

/-- `str` is injective on these categories. -/
theorem C27_str_injective (t u : Cat) (ht : t.Printable) (hu : u.Printable) (h : t.toStr = u.toStr) :
    t = u := by
  have h1 := C27_roundtrip t ht
  rw [h, C27_roundtrip u hu] at h1
  simpa using h1.symm

/-- Redundant outer brackets are accepted and ignored. -/
theorem C27_redundant_brackets (f : String → String) (s : List Char) (t : Cat)
    (hc : ¬ "[conj]".toList <:+ s) (h : parse f s = .ok t) : parse f ('(' :: s ++ [')']) = .ok t := by
  have hd := (C27_parse_iff_grammar f s t).1 h
  cases hd with
  | plain h _ =>
    refine (C27_parse_iff_grammar f _ t).2 (.plain (.single (bracketed_of_compound f h)) ?_)
    intro hs
    have := suffix_after (p := '(' :: s) (x := []) (c := ')') (by simpa using hs) (by decide)
    simp at this
  | conj h => exact absurd (List.suffix_append _ _) hc

/-- The CCGBank conjunction tag: `C[conj]` is `C\C`. -/
theorem C27_conj (f : String → String) (s : List Char) (t : Cat)
    (hc : ¬ "[conj]".toList <:+ s) (h : parse f s = .ok t) : parse f (s ++ "[conj]".toList) = .ok (under t t) := by
  have hd := (C27_parse_iff_grammar f s t).1 h
  cases hd with
  | plain h _ => exact (C27_parse_iff_grammar f _ _).2 (.conj h)
  | conj h => exact absurd (List.suffix_append _ _) hc

/-- Opening minus closing brackets. -/
def bracketDepth (s : List Char) : Int := (s.count '(' : Int) - s.count ')'

theorem bracketed_balanced {f : String → String} {s : List Char} {t : Cat} (h : Bracketed f s t) :
    s.count '(' = s.count ')' := by
  induction h with
  | atom s h =>
    rw [List.count_eq_zero_of_not_mem (fun hm => (h.2 _ hm).1 rfl),
      List.count_eq_zero_of_not_mem (fun hm => (h.2 _ hm).2.1 rfl)]
  | group h ih => simp [List.count_append, List.count_cons, ih]
  | over h h' ih ih' => simp [List.count_append, List.count_cons, ih, ih']; omega
  | under h h' ih ih' => simp [List.count_append, List.count_cons, ih, ih']; omega

/-- Strings with unbalanced brackets are rejected. -/
theorem C27_unbalanced_rejected (f : String → String) (s : List Char) (h : bracketDepth s ≠ 0) :
    parse f s = .error .parseError ∨ parse f s = .error .assertionError := by
  rcases C27_parse_total f s with ⟨t, _, hd⟩ | ⟨_, h'⟩
  · exfalso
    apply h
    have hcomp : ∀ {s t}, Compound f s t → s.count '(' = s.count ')' := by
      intro s t hc
      cases hc with
      | single h => exact bracketed_balanced h
      | over h h' =>
        have := bracketed_balanced h; have := bracketed_balanced h'
        simp [List.count_append, List.count_cons]; omega
      | under h h' =>
        have := bracketed_balanced h; have := bracketed_balanced h'
        simp [List.count_append, List.count_cons]; omega
    cases hd with
    | plain hp _ => simp [bracketDepth, hcomp hp]
    | conj hp =>
      have := hcomp hp
      simp [bracketDepth, List.count_append, this, List.count_cons]
  · exact h'

/-- Full C27 asks that malformed strings raise `CCGParseError`.  Refuted: a doubly slashed group trips
a bare `assert` (ccg_type.py:385) instead. -/
theorem C27_refuted_parse_error : parse _root_.id "(a/b/c)".toList = .error .assertionError := by
  decide +kernel

/-- Full C27 for all categories is refuted by the empty category: `str` gives `()`, which does not
parse. -/
theorem C27_refuted_empty : parse _root_.id (toStr empty) = .error .parseError := by decide +kernel

/-- Non-vacuity: a printable category with both slashes and nesting on both sides. -/
example : Printable (over (under (atom "s") (atom "np")) (over (atom "n") (atom "n[nb]"))) ∧
    parse _root_.id "(s\\np)/(n/n[nb])".toList =
      .ok (over (under (atom "s") (atom "np")) (over (atom "n") (atom "n[nb]"))) := by
  constructor
  · simp only [Printable, AtomChars]
    decide +kernel
  · decide +kernel

example : parse _root_.id "((a)/b)[conj]".toList =
    .ok (under (over (atom "a") (atom "b")) (over (atom "a") (atom "b"))) := by decide +kernel

end Cat
end Lambeq
