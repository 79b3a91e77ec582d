import Verif.Bobcat.Lexicon
import Mathlib.Tactic.IntervalCases

/-!
# Bobcat: categories as strings, the theorems (C93)
-/

namespace Lambeq
namespace Bobcat
set_option linter.unusedSimpArgs false

/-! ## Pieces -/

/-- What can follow a category: the end, a slash or a closing parenthesis. -/
def Stop (s : List Char) : Prop := ∀ c ∈ s.head?, c = '/' ∨ c = '\\' ∨ c = ')'

theorem Stop.cases {s : List Char} (h : Stop s) : s = [] ∨ ∃ c t, s = c :: t ∧ (c = '/' ∨ c = '\\' ∨ c = ')') := by
  cases s with
  | nil => exact .inl rfl
  | cons c t => exact .inr ⟨c, t, rfl, h c rfl⟩

theorem takeWhile_stop {p : Char → Bool} (l rest : List Char) (hl : ∀ c ∈ l, p c = true) (hr : ∀ c ∈ rest.head?, p c = false) :
    (l ++ rest).takeWhile p = l ∧ (l ++ rest).dropWhile p = rest := by
  rw [List.takeWhile_append_of_pos hl, List.dropWhile_append_of_pos hl]
  cases rest with
  | nil => simp
  | cons c t =>
    have := hr c rfl
    rw [List.takeWhile_cons_of_neg (by simp [this]), List.dropWhile_cons_of_neg (by simp [this])]
    simp

theorem matchSlot_digits (n : Nat) (rest : List Char) : matchSlot (['<'] ++ Nat.toDigits 10 n ++ ['>'] ++ rest) = (true, rest) := by
  have := takeWhile_stop (p := Char.isDigit) (Nat.toDigits 10 n) ('>' :: rest) (fun c hc => Nat.isDigit_of_mem_toDigits (by omega) (by omega) hc) (by
    intro c hc; simp at hc; subst hc; decide)
  have e : ['<'] ++ Nat.toDigits 10 n ++ ['>'] ++ rest = '<' :: (Nat.toDigits 10 n ++ '>' :: rest) := by simp
  rw [e, matchSlot]
  simp only [this.1, this.2]
  rw [if_neg Nat.toDigits_ne_nil]

theorem matchSlot_stop {rest : List Char} (h : Stop rest) : matchSlot rest = (false, rest) := by
  rcases h.cases with rfl | ⟨c, t, rfl, rfl | rfl | rfl⟩ <;> rfl

theorem matchVar_none {rest : List Char} (h : Stop rest ∨ ∃ t, rest = '<' :: t) : matchVar rest = (none, rest) := by
  rcases h with h | ⟨t, rfl⟩
  · rcases h.cases with rfl | ⟨c, t, rfl, rfl | rfl | rfl⟩ <;> rfl
  · rfl

theorem matchVar_some (v : Nat) (h0 : v ≠ 0) (h : v < 12) (rest : List Char) :
    ∃ c, (varChars[v]?).toList = [c] ∧ matchVar (['{'] ++ [c] ++ ['}'] ++ rest) = (some [c], rest) ∧ varId [c] = .ok v := by
  have key : ∀ c : Char, (c == '_' || isUpper c) = true → matchVar (['{'] ++ [c] ++ ['}'] ++ rest) = (some [c], rest) := by
    intro c hc
    have := takeWhile_stop (p := fun c => c == '_' || isUpper c) [c] ('}' :: rest) (by simpa using hc) (by
      intro c hc; simp at hc; subst hc; decide)
    have e : ['{'] ++ [c] ++ ['}'] ++ rest = '{' :: ([c] ++ '}' :: rest) := by simp
    rw [e, matchVar]
    simp only [this.1, this.2]
    rw [if_neg (by simp)]
  interval_cases v
  · exact absurd rfl h0
  all_goals exact ⟨_, rfl, key _ (by decide), by decide⟩

/-- Reading back the variable and the relation. -/
theorem read_suffix (v : Nat) (hv : v < 12) (r : Option Nat) (k : Nat) {rest : List Char} (h : Stop rest) :
    readVar (matchVar ((suffixStr v r k).1 ++ rest)).1 = .ok v ∧ matchSlot (matchVar ((suffixStr v r k).1 ++ rest)).2 = (r.isSome, rest) := by
  have tail : ∀ pre : List Char, matchSlot ((if r.isSome then (['<'] ++ Nat.toDigits 10 (k + 1) ++ ['>']) else []) ++ rest) = (r.isSome, rest) := by
    intro _
    cases r with
    | none => simpa using matchSlot_stop h
    | some x => simpa using matchSlot_digits (k + 1) rest
  have tail := tail []
  have e : (suffixStr v r k).1 = (if v ≠ 0 then ['{'] ++ (varChars[v]?).toList ++ ['}'] else []) ++ (if r.isSome then (['<'] ++ Nat.toDigits 10 (k + 1) ++ ['>']) else []) := by
    unfold suffixStr
    cases r <;> simp
  rw [e, List.append_assoc]
  by_cases h0 : v = 0
  · subst h0
    rw [if_neg (by simp), List.nil_append, matchVar_none]
    · exact ⟨rfl, tail⟩
    · cases r with
      | none => left; simpa using h
      | some x => right; exact ⟨Nat.toDigits 10 (k + 1) ++ ['>'] ++ rest, by simp⟩
  · rw [if_pos h0]
    obtain ⟨c, h1, h2, h3⟩ := matchVar_some v h0 hv ((if r.isSome then (['<'] ++ Nat.toDigits 10 (k + 1) ++ ['>']) else []) ++ rest)
    rw [h1, h2]
    exact ⟨h3, tail⟩

/-- What can follow an atom and its feature. -/
def Soft (s : List Char) : Prop := ∀ c ∈ s.head?, c = '/' ∨ c = '\\' ∨ c = ')' ∨ c = '{' ∨ c = '<'

theorem soft_suffix (v : Nat) (r : Option Nat) (k : Nat) {rest : List Char} (h : Stop rest) : Soft ((suffixStr v r k).1 ++ rest) := by
  intro c hc
  unfold suffixStr at hc
  by_cases h0 : v = 0
  · cases r with
    | none => simp [h0] at hc; have := h c (by simpa using hc); tauto
    | some x => simp [h0] at hc; tauto
  · cases r with
    | none => simp [h0] at hc; tauto
    | some x => simp [h0] at hc; tauto

theorem Soft.cases {s : List Char} (h : Soft s) : s = [] ∨ ∃ c t, s = c :: t ∧ (c = '/' ∨ c = '\\' ∨ c = ')' ∨ c = '{' ∨ c = '<') := by
  cases s with
  | nil => exact .inl rfl
  | cons c t => exact .inr ⟨c, t, rfl, h c rfl⟩

theorem ofChars_atom (a : Atom) : Atom.ofChars a.chars = .ok a := by cases a <;> rfl

theorem match_atom (a : Atom) (ha : a ≠ .none) {rest : List Char} (h : ∀ c ∈ rest.head?, isUpper c = false) : matchAtom (a.chars ++ rest) = some (a.chars, rest) := by
  have up : ∀ (c : Char) (l : List Char), (∀ x ∈ c :: l, isUpper x = true) → matchAtom (c :: l ++ rest) = some (c :: l, rest) := by
    intro c l hl
    obtain ⟨h1, h2⟩ := takeWhile_stop (c :: l) rest hl h
    rw [List.cons_append] at h1 h2 ⊢
    rw [matchAtom, if_pos (hl c List.mem_cons_self), h1, h2]
  cases a with
  | none => exact absurd rfl ha
  | n => exact up _ _ (by decide)
  | np => exact up _ _ (by decide)
  | s => exact up _ _ (by decide)
  | pp => exact up _ _ (by decide)
  | lqu => exact up _ _ (by decide)
  | rqu => exact up _ _ (by decide)
  | lrb => exact up _ _ (by decide)
  | rrb => exact up _ _ (by decide)
  | conj => rfl
  | comma => rfl
  | semicolon => rfl
  | colon => rfl
  | period => rfl

theorem feature_names : ∀ n ∈ featureNames, Feature.ofChars n.toList = .ok (.named n) ∧ n.toList ≠ [] ∧ ∀ c ∈ n.toList, isLower c = true := by decide

theorem match_feature (f : Feature) (hf : f = .none ∨ f = .x ∨ ∃ n ∈ featureNames, f = .named n) {rest : List Char} (h : Soft rest) :
    let m := matchFeature ((if f ≠ .none then ['['] ++ f.chars ++ [']'] else []) ++ rest)
    readFeature m.1 = .ok f ∧ m.2 = rest := by
  have key : ∀ l : List Char, l ≠ [] → (∀ c ∈ l, (c == 'X' || isLower c) = true) → matchFeature (['['] ++ l ++ [']'] ++ rest) = (some l, rest) := by
    intro l hne hl
    have := takeWhile_stop (p := fun c => c == 'X' || isLower c) l (']' :: rest) hl (by
      intro c hc; simp at hc; subst hc; decide)
    have e : ['['] ++ l ++ [']'] ++ rest = '[' :: (l ++ ']' :: rest) := by simp
    rw [e, matchFeature]
    simp only [this.1, this.2]
    rw [if_neg hne]
  rcases hf with rfl | rfl | ⟨n, hn, rfl⟩
  · have : matchFeature rest = (none, rest) := by
      rcases h.cases with rfl | ⟨c, t, rfl, rfl | rfl | rfl | rfl | rfl⟩ <;> rfl
    simp [this, readFeature]
  · have := key ['X'] (by simp) (by decide)
    simp only [ne_eq, reduceCtorEq, not_false_eq_true, if_true, Feature.chars]
    rw [this]
    exact ⟨rfl, rfl⟩
  · obtain ⟨h1, h2, h3⟩ := feature_names n hn
    have := key n.toList h2 (fun c hc => by simp [h3 c hc])
    simp only [ne_eq, reduceCtorEq, not_false_eq_true, if_true, Feature.chars]
    rw [this]
    exact ⟨h1, rfl⟩

namespace BCat

/-- How a category is written within another one. -/
def inner : BCat → Nat → List Char × Nat
  | .atomic a f v r, k => (a.chars ++ (if f ≠ .none then ['['] ++ f.chars ++ [']'] else []) ++ (suffixStr v r k).1, (suffixStr v r k).2)
  | .slash d r a v l _, k =>
    (['('] ++ ((r.inner k).1 ++ [d] ++ (a.inner (r.inner k).2).1) ++ [')'] ++ (suffixStr v l (a.inner (r.inner k).2).2).1, (suffixStr v l (a.inner (r.inner k).2).2).2)

/-- Complex categories within a category that are not marked do not end in a mark. -/
def Good : BCat → Prop
  | .atomic .. => True
  | .slash _ r a _ _ _ => ((r.isComplex = true → r.HasMark ∨ ∀ k, (r.toStr true k).1.getLast? ≠ some '}' ∧ (r.toStr true k).1.getLast? ≠ some '>') ∧
      (a.isComplex = true → a.HasMark ∨ ∀ k, (a.toStr true k).1.getLast? ≠ some '}' ∧ (a.toStr true k).1.getLast? ≠ some '>')) ∧ r.Good ∧ a.Good

theorem suffix_unmarked (k : Nat) : suffixStr 0 none k = ([], k) := rfl

theorem suffix_last (v : Nat) (r : Option Nat) (k : Nat) (h : v ≠ 0 ∨ r.isSome) (pre : List Char) :
    (pre ++ (suffixStr v r k).1).getLast? = some '}' ∨ (pre ++ (suffixStr v r k).1).getLast? = some '>' := by
  unfold suffixStr
  cases r with
  | none =>
    left
    have h0 : v ≠ 0 := by simpa using h
    simp [h0, List.getLast?_append, List.getLast?_cons]
  | some x =>
    right
    simp [List.getLast?_append, List.getLast?_cons]

theorem marked_bool (v : Nat) (l : Option Nat) : (v != 0 || l.isSome) = true ↔ v ≠ 0 ∨ l.isSome := by simp

theorem unmarked {v : Nat} {l : Option Nat} (h : ¬ (v ≠ 0 ∨ l.isSome)) : v = 0 ∧ l = none := by
  rw [not_or, not_not] at h
  exact ⟨h.1, by cases l <;> simp_all⟩

theorem wrap_last (c : BCat) (s : List Char) (h : s.getLast? = some '}' ∨ s.getLast? = some '>') : c.wrap s = s := by
  unfold wrap
  rw [if_neg]
  rcases h with h | h <;> rw [h] <;> simp

theorem wrap_complex (c : BCat) (s : List Char) (hc : c.isComplex = true) (h : s.getLast? ≠ some '}' ∧ s.getLast? ≠ some '>') : c.wrap s = ['('] ++ s ++ [')'] := by
  unfold wrap
  rw [if_pos]
  rw [hc, beq_eq_false_iff_ne.2 h.1, beq_eq_false_iff_ne.2 h.2]
  rfl

theorem wrap_inner : ∀ (c : BCat) (k : Nat), c.Good → (c.isComplex = true → c.HasMark ∨ ∀ k, (c.toStr true k).1.getLast? ≠ some '}' ∧ (c.toStr true k).1.getLast? ≠ some '>') →
    (c.wrap (c.toStr true k).1, (c.toStr true k).2) = c.inner k
  | .atomic a f v r, k, _, _ => by
      rw [wrap]
      simp only [isComplex, Bool.false_and, Bool.false_eq_true, if_false]
      rw [toStr, inner]
      by_cases h : v ≠ 0 ∨ r.isSome
      · rw [if_pos (by simpa using h)]
      · obtain ⟨rfl, rfl⟩ := unmarked h
        rw [if_neg (by simp), suffix_unmarked]
        simp
  | .slash d r a v l t, k, hg, hm => by
      have h1 := wrap_inner r k hg.2.1 hg.1.1
      have h2 := wrap_inner a (r.toStr true k).2 hg.2.2 hg.1.2
      have e1 : (r.inner k).1 = r.wrap (r.toStr true k).1 := by rw [← h1]
      have e1' : (r.inner k).2 = (r.toStr true k).2 := by rw [← h1]
      have e2 : (a.inner (r.toStr true k).2).1 = a.wrap (a.toStr true (r.toStr true k).2).1 := by rw [← h2]
      have e2' : (a.inner (r.toStr true k).2).2 = (a.toStr true (r.toStr true k).2).2 := by rw [← h2]
      by_cases h : v ≠ 0 ∨ l.isSome
      · have ht : (slash d r a v l t).toStr true k = (['('] ++ (r.wrap (r.toStr true k).1 ++ [d] ++ a.wrap (a.toStr true (r.toStr true k).2).1) ++ [')'] ++
            (suffixStr v l (a.toStr true (r.toStr true k).2).2).1, (suffixStr v l (a.toStr true (r.toStr true k).2).2).2) := by
          rw [toStr, if_pos (by simpa using h)]
        rw [ht, inner, e1', e2', e1, e2]
        have hl := suffix_last v l (a.toStr true (r.toStr true k).2).2 h (['('] ++ (r.wrap (r.toStr true k).1 ++ [d] ++ a.wrap (a.toStr true (r.toStr true k).2).1) ++ [')'])
        dsimp only
        rw [wrap_last _ _ hl]
      · obtain ⟨rfl, rfl⟩ := unmarked h
        have ht : (slash d r a 0 none t).toStr true k = (r.wrap (r.toStr true k).1 ++ [d] ++ a.wrap (a.toStr true (r.toStr true k).2).1, (a.toStr true (r.toStr true k).2).2) := by
          rw [toStr, if_neg (by simp)]
        rcases hm rfl with hm | hm
        · exact absurd hm h
        · have hm := hm k
          rw [ht] at hm
          rw [ht, inner, e1', e2', e1, e2, suffix_unmarked]
          dsimp only
          rw [wrap_complex _ _ rfl hm]
          simp

theorem inner_pos (c : BCat) (h : c.Clean) (k : Nat) : 0 < (c.inner k).1.length := by
  cases c with
  | atomic a f v r =>
    have : 0 < a.chars.length := by
      have := h.1
      cases a <;> simp_all [Atom.chars]
    rw [inner]; simp; omega
  | slash d r a v l t => rw [inner]; simp

theorem stop_slash {d : Char} (h : d = '/' ∨ d = '\\') (s : List Char) : Stop (d :: s) := by
  intro c hc
  simp at hc
  subst hc
  tauto

theorem stop_close (s : List Char) : Stop (')' :: s) := by
  intro c hc
  simp at hc
  subst hc
  tauto

theorem parseAtomic_inner (a : Atom) (f : Feature) (v : Nat) (r : Option Nat) (h : (BCat.atomic a f v r).Clean) (k slots : Nat) {rest : List Char} (hr : Stop rest) :
    parseAtomic slots (((BCat.atomic a f v r).inner k).1 ++ rest) = .ok (.atomic a f v (r.map (fun _ => slots)), rest, slots) := by
  obtain ⟨ha, hf, hv⟩ := h
  have hsoft := soft_suffix v r k hr
  have hfe := match_feature f hf hsoft
  have hsu := read_suffix v hv r k hr
  have hat := match_atom a ha (rest := (if f ≠ .none then ['['] ++ f.chars ++ [']'] else []) ++ ((suffixStr v r k).1 ++ rest)) (by
    intro c hc
    by_cases hn : f = .none
    · simp only [hn, ne_eq, not_true_eq_false, if_false, List.nil_append] at hc
      rcases hsoft c hc with rfl | rfl | rfl | rfl | rfl <;> decide
    · simp [hn] at hc
      subst hc; decide)
  have e : ((BCat.atomic a f v r).inner k).1 ++ rest = a.chars ++ ((if f ≠ .none then ['['] ++ f.chars ++ [']'] else []) ++ ((suffixStr v r k).1 ++ rest)) := by
    rw [inner]; simp only [List.append_assoc]
  rw [e, parseAtomic, hat]
  simp only
  rw [hfe.1, hfe.2]
  simp only
  rw [hsu.1]
  simp only
  rw [ofChars_atom]
  simp only
  rw [hsu.2]
  cases r <;> rfl

theorem head_inner_atomic (a : Atom) (f : Feature) (v : Nat) (r : Option Nat) (ha : a ≠ .none) (k : Nat) (rest : List Char) :
    ∃ c s, ((BCat.atomic a f v r).inner k).1 ++ rest = c :: s ∧ c ≠ '(' := by
  rw [inner]
  cases a with
  | none => exact absurd rfl ha
  | _ => exact ⟨_, _, rfl, by decide⟩

/-- Reading an argument. -/
theorem parse_arg : ∀ (c : BCat) (n k slots : Nat) (rest : List Char), c.Clean → (c.inner k).1.length ≤ n → Stop rest →
    parseAux n ((c.inner k).1 ++ rest) 0 slots false = .ok (c.allSlots slots, rest, slots)
  | .atomic a f v r, n, k, slots, rest, hc, hn, hr => by
      have hp := inner_pos _ hc k
      obtain ⟨n, rfl⟩ : ∃ m, n = m + 1 := ⟨n - 1, by omega⟩
      obtain ⟨c, s, e, hne⟩ := head_inner_atomic a f v r hc.1 k rest
      have := parseAtomic_inner a f v r hc k slots hr
      rw [e] at this ⊢
      rw [parseAux, if_neg hne, this]
      rfl
  | .slash d r a v l t, n, k, slots, rest, hc, hn, hr => by
      have hp := inner_pos _ hc k
      obtain ⟨n, rfl⟩ : ∃ m, n = m + 1 := ⟨n - 1, by omega⟩
      obtain ⟨hd, hcr, hca, hv⟩ := hc
      rw [inner] at hn ⊢
      simp only [List.length_append, List.length_cons, List.length_nil] at hn
      have e : ['('] ++ ((r.inner k).1 ++ [d] ++ (a.inner (r.inner k).2).1) ++ [')'] ++ (suffixStr v l (a.inner (r.inner k).2).2).1 ++ rest =
          '(' :: ((r.inner k).1 ++ (d :: ((a.inner (r.inner k).2).1 ++ (')' :: ((suffixStr v l (a.inner (r.inner k).2).2).1 ++ rest))))) := by simp
      rw [e, parseAux, if_pos rfl, parse_arg r n k slots _ hcr (by omega) (stop_slash hd _)]
      simp only [Bool.false_eq_true, if_false]
      rw [parse_arg a n _ slots _ hca (by omega) (stop_close _)]
      simp only [ne_eq, not_true_eq_false, if_false]
      obtain ⟨h1, h2⟩ := read_suffix v hv l (a.inner (r.inner k).2).2 hr
      rw [h1]
      simp only
      rw [h2, allSlots]
      cases l <;> rfl

/-- Reading a category from its start. -/
theorem parse_res : ∀ (c : BCat) (n k tr : Nat) (rest : List Char), c.Clean → (c.inner k).1.length ≤ n → Stop rest →
    parseAux n ((c.inner k).1 ++ rest) tr 0 true = .ok (c.slotted tr, rest, c.arity)
  | .atomic a f v r, n, k, tr, rest, hc, hn, hr => by
      have hp := inner_pos _ hc k
      obtain ⟨n, rfl⟩ : ∃ m, n = m + 1 := ⟨n - 1, by omega⟩
      obtain ⟨c, s, e, hne⟩ := head_inner_atomic a f v r hc.1 k rest
      have := parseAtomic_inner a f v r hc k 0 hr
      rw [e] at this ⊢
      rw [parseAux, if_neg hne, this]
      rfl
  | .slash d r a v l t, n, k, tr, rest, hc, hn, hr => by
      have hp := inner_pos _ hc k
      obtain ⟨n, rfl⟩ : ∃ m, n = m + 1 := ⟨n - 1, by omega⟩
      obtain ⟨hd, hcr, hca, hv⟩ := hc
      rw [inner] at hn ⊢
      simp only [List.length_append, List.length_cons, List.length_nil] at hn
      have e : ['('] ++ ((r.inner k).1 ++ [d] ++ (a.inner (r.inner k).2).1) ++ [')'] ++ (suffixStr v l (a.inner (r.inner k).2).2).1 ++ rest =
          '(' :: ((r.inner k).1 ++ (d :: ((a.inner (r.inner k).2).1 ++ (')' :: ((suffixStr v l (a.inner (r.inner k).2).2).1 ++ rest))))) := by simp
      rw [e, parseAux, if_pos rfl, parse_res r n k 0 _ hcr (by omega) (stop_slash hd _)]
      simp only [if_true]
      rw [parse_arg a n _ _ _ hca (by omega) (stop_close _)]
      simp only [ne_eq, not_true_eq_false, if_false]
      obtain ⟨h1, h2⟩ := read_suffix v hv l (a.inner (r.inner k).2).2 hr
      rw [h1]
      simp only
      rw [h2, slotted, arity]
      cases l <;> rfl

theorem stop_nil : Stop [] := by intro c hc; simp at hc

/-- Reading what `repr` wrote. -/
theorem parse_repr (c : BCat) (hc : c.Clean) (hg : c.Good) (tr : Char) (v : Nat) (ht : varId [tr] = .ok v) : parse c.repr tr = .ok (c.slotted v) := by
  by_cases hm : c.isComplex = true → c.HasMark
  · have h1 := wrap_inner c 0 hg (fun h => .inl (hm h))
    have h2 : c.repr = (c.inner 0).1 := by
      rw [← h1, repr]
      cases c with
      | atomic a f w r => rfl
      | slash d r a w l t =>
        have hw := hm rfl
        have hw' : w ≠ 0 ∨ l.isSome := hw
        dsimp only
        rw [wrap_last]
        rw [toStr, if_pos (by simpa using hw')]
        exact suffix_last w l (a.toStr true (r.toStr true 0).2).2 hw' (['('] ++ (r.wrap (r.toStr true 0).1 ++ [d] ++ a.wrap (a.toStr true (r.toStr true 0).2).1) ++ [')'])
    have h3 := parse_res c (c.repr.length + 3) 0 v [] hc (by rw [h2]; omega) stop_nil
    rw [List.append_nil, ← h2] at h3
    rw [parse, ht]
    simp only
    rw [h3]
  · cases c with
    | atomic a f w r => exact absurd (fun h => by simp [isComplex] at h) hm
    | slash d r a w l t =>
      have hw : ¬ (w ≠ 0 ∨ l.isSome) := fun h => hm (fun _ => h)
      obtain ⟨rfl, rfl⟩ := unmarked hw
      have e1 := wrap_inner r 0 hg.2.1 hg.1.1
      have e2 := wrap_inner a (r.toStr true 0).2 hg.2.2 hg.1.2
      have f1 : (r.inner 0).1 = r.wrap (r.toStr true 0).1 := by rw [← e1]
      have f1' : (r.inner 0).2 = (r.toStr true 0).2 := by rw [← e1]
      have f2 : (a.inner (r.toStr true 0).2).1 = a.wrap (a.toStr true (r.toStr true 0).2).1 := by rw [← e2]
      have h2 : (slash d r a 0 none t).repr = (r.inner 0).1 ++ (d :: (a.inner (r.inner 0).2).1) := by
        rw [f1', f1, f2, repr, toStr, if_neg (by simp)]
        simp
      have h4 : ['('] ++ (slash d r a 0 none t).repr ++ [')'] = ((slash d r a 0 none t).inner 0).1 := by
        rw [h2, inner, suffix_unmarked]; simp
      have hlen : (slash d r a 0 none t).repr.length = (r.inner 0).1.length + 1 + (a.inner (r.inner 0).2).1.length := by rw [h2]; simp; omega
      have h3 := parse_res r ((slash d r a 0 none t).repr.length + 3) 0 v (d :: (a.inner (r.inner 0).2).1) hc.2.1 (by omega) (stop_slash hc.1 _)
      -- the first attempt: the variable is only used for complex categories
      have h5 := parse_res (slash d r a 0 none t) ((slash d r a 0 none t).repr.length + 3) 0 v [] hc (by rw [← h4]; simp) stop_nil
      rw [List.append_nil, ← h4] at h5
      rw [← h2] at h3
      rw [parse, ht]
      simp only
      rw [h3]
      simp only
      rw [h5]

theorem partsMarked_good : ∀ c : BCat, c.PartsMarked → c.Good
  | .atomic .., _ => trivial
  | .slash _ r a _ _ _, h => ⟨⟨fun hr => .inl (h.1 hr), fun ha => .inl (h.2.1 ha)⟩, partsMarked_good r h.2.2.1, partsMarked_good a h.2.2.2⟩

theorem toStr_bare : ∀ (c : BCat) (k : Nat), c.toStr false k = (c.bare.toStr true k)
  | .atomic a f v r, k => by rw [bare, toStr, toStr]; simp
  | .slash d r a v l t, k => by
      rw [bare, toStr, toStr, toStr_bare r k, toStr_bare a]
      have : ∀ (c : BCat) (s : List Char), c.wrap s = c.bare.wrap s := by intro c s; cases c <;> rfl
      simp [this r, this a]

theorem bare_clean : ∀ c : BCat, c.Clean → c.bare.Clean
  | .atomic _ _ _ _, h => ⟨h.1, h.2.1, by omega⟩
  | .slash _ r a _ _ _, h => ⟨h.1, bare_clean r h.2.1, bare_clean a h.2.2.1, by omega⟩

/-- Without marks nothing ends in a mark. -/
theorem bare_last : ∀ (c : BCat) (k : Nat), c.Clean → (c.bare.toStr true k).1.getLast? ≠ some '}' ∧ (c.bare.toStr true k).1.getLast? ≠ some '>'
  | .atomic a f v r, k, h => by
      rw [bare, toStr, if_neg (by simp)]
      by_cases hn : f = .none
      · subst hn
        obtain ⟨ha, _⟩ := h
        cases a with
        | none => exact absurd rfl ha
        | _ => simp [Atom.chars]
      · simp [hn, List.getLast?_append, List.getLast?_cons]
  | .slash d r a v l t, k, h => by
      rw [bare, toStr, if_neg (by simp)]
      have ih := bare_last a (r.bare.toStr true k).2 h.2.2.1
      by_cases hc : a.bare.isComplex = true
      · rw [show a.bare.wrap (a.bare.toStr true (r.bare.toStr true k).2).1 = ['('] ++ (a.bare.toStr true (r.bare.toStr true k).2).1 ++ [')'] by
          exact wrap_complex _ _ hc ih]
        simp [List.getLast?_append, List.getLast?_cons]
      · rw [show a.bare.wrap (a.bare.toStr true (r.bare.toStr true k).2).1 = (a.bare.toStr true (r.bare.toStr true k).2).1 by
          rw [wrap, if_neg (by simp [hc])]]
        cases hl : (a.bare.toStr true (r.bare.toStr true k).2).1 with
        | nil =>
          rcases h.1 with rfl | rfl <;> simp [List.getLast?_append, List.getLast?_cons]
        | cons x xs =>
          rw [hl] at ih
          rw [List.getLast?_append]
          cases hx : (x :: xs).getLast? with
          | none => simp at hx
          | some y => rw [hx] at ih; simpa using ih

theorem bare_good : ∀ c : BCat, c.Clean → c.bare.Good
  | .atomic .., _ => trivial
  | .slash _ r a _ _ _, h => ⟨⟨fun _ => .inr (fun k => bare_last r k h.2.1), fun _ => .inr (fun k => bare_last a k h.2.2.1)⟩, bare_good r h.2.1, bare_good a h.2.2.1⟩

theorem allSlots_bare (n : Nat) : ∀ c : BCat, c.bare.allSlots n = c.bare
  | .atomic .. => rfl
  | .slash _ r a _ _ _ => by rw [bare, allSlots, allSlots_bare n r, allSlots_bare n a]; rfl

theorem slotted_bare : ∀ c : BCat, c.bare.slotted 0 = c.bare
  | .atomic .. => rfl
  | .slash _ r a _ _ _ => by rw [bare, slotted, slotted_bare r, allSlots_bare]; rfl

theorem toStr_allSlots (n : Nat) : ∀ (c : BCat) (k : Nat), (c.allSlots n).toStr true k = c.toStr true k
  | .atomic a f v r, k => by rw [allSlots, toStr, toStr]; cases r <;> simp [suffixStr]
  | .slash d r a v l t, k => by
      rw [allSlots, toStr, toStr, toStr_allSlots n r, toStr_allSlots n a]
      have : ∀ (c : BCat) (s : List Char), (c.allSlots n).wrap s = c.wrap s := by intro c s; cases c <;> rfl
      rw [this r, this a]
      cases l <;> simp [suffixStr]

theorem toStr_slotted : ∀ (c : BCat) (tr k : Nat), (c.slotted tr).toStr true k = c.toStr true k
  | .atomic a f v r, tr, k => by rw [slotted, toStr, toStr]; cases r <;> simp [suffixStr]
  | .slash d r a v l t, tr, k => by
      rw [slotted, toStr, toStr, toStr_slotted r, toStr_allSlots]
      have : ∀ (c : BCat) (s : List Char), (c.slotted 0).wrap s = c.wrap s := by intro c s; cases c <;> rfl
      have h2 : ∀ (n : Nat) (c : BCat) (s : List Char), (c.allSlots n).wrap s = c.wrap s := by intro n c s; cases c <;> rfl
      rw [this r, h2]
      cases l <;> simp [suffixStr]

/-! ## Theorems -/

/-- `((S[dcl]{_}\NP{Y}<1>){_}/NP{Z}<2>){_}`: a transitive verb. -/
def exVerb : BCat := .slash '/' (.slash '\\' (.atomic .s (.named "dcl") 1 none) (.atomic .np .none 2 (some 7)) 1 none 0) (.atomic .np .none 3 (some 8)) 1 none 0

example : exVerb.repr = "((S[dcl]{_}\\NP{Y}<1>){_}/NP{Z}<2>){_}".toList ∧ exVerb.str = "(S[dcl]\\NP)/NP".toList := by decide

/-- C93: `parse(str(c))` is `c` without variables and relations, for every category of the grammar. -/
theorem C93_str_roundtrip (c : BCat) (hc : c.Clean) : parse c.str '+' = .ok c.bare := by
  have : c.str = c.bare.repr := by rw [str, repr, toStr_bare]
  rw [this, parse_repr c.bare (bare_clean c hc) (bare_good c hc) '+' 0 (by decide), slotted_bare]

example : exVerb.Clean := by simp [exVerb, Clean, featureNames]

/-- C93: categories with the same string are the same up to variables and relations. -/
theorem C93_str_injective (c d : BCat) (hc : c.Clean) (hd : d.Clean) (h : c.str = d.str) : c.bare = d.bare := by
  have h1 := C93_str_roundtrip c hc
  have h2 := C93_str_roundtrip d hd
  rw [h] at h1
  exact Except.ok.inj (h1.symm.trans h2)

/-- C93: where all complex parts have a variable or a relation, as in the lexicon, `parse(repr(c))` is `c`, with the type-raising variable given; its relations have as slot the number of
the argument they are in, and it is written in the same way. -/
theorem C93_repr_roundtrip_partial (c : BCat) (hc : c.Clean) (hm : c.PartsMarked) (tr : Char) (v : Nat) (ht : varId [tr] = .ok v) :
    parse c.repr tr = .ok (c.slotted v) ∧ (c.slotted v).repr = c.repr :=
  ⟨parse_repr c hc (partsMarked_good c hm) tr v ht, by rw [repr, repr, toStr_slotted]⟩

example : exVerb.PartsMarked ∧ parse exVerb.repr '+' = .ok (.slash '/' (.slash '\\' (.atomic .s (.named "dcl") 1 none) (.atomic .np .none 2 (some 1)) 1 none 0)
    (.atomic .np .none 3 (some 2)) 1 none 0) := by
  refine ⟨by simp [exVerb, PartsMarked, HasMark, BCat.var, isComplex], ?_⟩
  exact (C93_repr_roundtrip_partial exVerb (by simp [exVerb, Clean, featureNames]) (by simp [exVerb, PartsMarked, HasMark, BCat.var, isComplex]) '+' 0 (by decide)).1

/-- C93, refuted in general: a complex part without a variable whose argument has one is written without parentheses, and cannot be read. -/
theorem C93_refuted_repr : let c : BCat := .slash '\\' (.slash '/' (.atomic .s .none 0 none) (.atomic .np .none 2 none) 0 none 0) (.atomic .np .none 3 none) 0 none 0
    c.repr = "S/NP{Y}\\NP{Z}".toList ∧ parse c.repr '+' = .error .assertionError := ⟨by decide, by rfl⟩

/-- C93, refuted: any character is taken for a slash. -/
theorem C93_refuted_slash : parse "S!NP".toList '+' = .ok (.slash '!' (.atomic .s .none 0 none) (.atomic .np .none 0 none) 0 none 0) := by rfl

end BCat
end Bobcat
end Lambeq
