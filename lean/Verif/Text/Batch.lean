import Verif.Py
import Mathlib.Data.List.Basic
import Mathlib.Data.List.Forall2

/-!
# Batches of sentences (C64)

Models `validate_sentence_batch` (text2diagram/model_based_reader/base.py 135-191), `BobcatParser.sentences2trees`
(model_based_reader/bobcat_parser.py 236-275), `OncillaParser._sentences2pregrouptrees` (model_based_reader/oncilla_parser.py 154-220),
`DepCCGParser.sentences2trees` (depccg_parser.py 252-294), `CCGParser.sentences2diagrams`, `sentence2tree` (ccg_parser.py 80-196) and
`OncillaParser.sentences2diagrams` (oncilla_parser.py 302-333).

Simplifications: progress output and the check of the verbosity are left out; `str.split` is a parameter; the tagger, the parser of one tagged
sentence and the conversion of one tree are parameters that may raise. A parse error is `parseError` whatever its class.
-/

namespace Lambeq
namespace Batch
set_option linter.unusedSimpArgs false
set_option linter.unusedVariables false

/-- A sentence as the caller may pass it: a string or a list of tokens. -/
inductive Input
  | str (s : String)
  | tokens (l : List String)
  deriving DecidableEq

/-- core/utils.py:44-46 with `tokenised=True`; base.py:165-170: the list of token lists, or ValueError. -/
def asTokens : List Input → Except PyErr (List (List String))
  | [] => .ok []
  | .tokens l :: rest =>
    match asTokens rest with
    | .error e => .error e
    | .ok ls => .ok (l :: ls)
  | .str _ :: _ => .error .valueError

/-- core/utils.py:39-41; base.py:171-177: the strings are split, or ValueError. -/
def asSplit (split : String → List String) : List Input → Except PyErr (List (List String))
  | [] => .ok []
  | .str s :: rest =>
    match asSplit split rest with
    | .error e => .error e
    | .ok ls => .ok (split s :: ls)
  | .tokens _ :: _ => .error .valueError

/-- base.py:164-177 -/
def tokenise (split : String → List String) (tokenised : Bool) (sentences : List Input) : Except PyErr (List (List String)) :=
  if tokenised then asTokens sentences else asSplit split sentences

/-- base.py:180-186: the loop from index `i` on. -/
def emptyIndices (suppress : Bool) : Nat → List (List String) → Except PyErr (List Nat)
  | _, [] => .ok []
  | i, s :: rest =>
    if s = [] then
      if suppress then
        match emptyIndices suppress (i + 1) rest with
        | .error e => .error e
        | .ok is => .ok (i :: is)
      else .error .valueError
    else emptyIndices suppress (i + 1) rest

/-- base.py:188-189: `for i in reversed(empty_indices): del l[i]`; the argument is the reversed list. -/
def delAll {A : Type} (l : List A) : List Nat → List A
  | [] => l
  | i :: is => delAll (l.eraseIdx i) is

/-- base.py:135-191 -/
def validate (split : String → List String) (tokenised suppress : Bool) (sentences : List Input) : Except PyErr (List (List String) × List Nat) :=
  match tokenise split tokenised sentences with
  | .error e => .error e
  | .ok ts =>
    match emptyIndices suppress 0 ts with
    | .error e => .error e
    | .ok is => .ok (delAll ts is.reverse, is)

/-- Python's `l.insert(i, x)` for `i ≥ 0`. -/
def pyInsert {A : Type} (l : List A) (i : Nat) (x : A) : List A := l.take i ++ x :: l.drop i

/-- bobcat_parser.py:272-273 -/
def reinsert {A : Type} (l : List (Option A)) : List Nat → List (Option A)
  | [] => l
  | i :: is => reinsert (pyInsert l i none) is

/-- bobcat_parser.py:256-270 -/
def parseLoop {U T : Type} (parse : U → Except PyErr T) (suppress : Bool) : List U → Except PyErr (List (Option T))
  | [] => .ok []
  | u :: us =>
    match parse u with
    | .ok t =>
      match parseLoop parse suppress us with
      | .error e => .error e
      | .ok ts => .ok (some t :: ts)
    | .error _ =>
      if suppress then
        match parseLoop parse suppress us with
        | .error e => .error e
        | .ok ts => .ok (none :: ts)
      else .error .parseError

/-- bobcat_parser.py:248-273 after the validation. -/
def parseValid {U T : Type} (tag : List (List String) → Except PyErr (List U)) (parse : U → Except PyErr T) (suppress : Bool) (valid : List (List String)) :
    Except PyErr (List (Option T)) :=
  if valid = [] then .ok []
  else
    match tag valid with
    | .error e => .error e
    | .ok us => parseLoop parse suppress us

/-- bobcat_parser.py:204-275 -/
def bobcatTrees {U T : Type} (split : String → List String) (tag : List (List String) → Except PyErr (List U)) (parse : U → Except PyErr T)
    (tokenised suppress : Bool) (sentences : List Input) : Except PyErr (List (Option T)) :=
  match validate split tokenised suppress sentences with
  | .error e => .error e
  | .ok (valid, is) =>
    match parseValid tag parse suppress valid with
    | .error e => .error e
    | .ok ts => .ok (reinsert ts is)

/-- oncilla_parser.py:178-215 for one sentence: `roots` removes a final ".", predicts and builds the root nodes; there must be exactly one.
`post` is `remove_cycles` (or nothing), which is called outside the `try`. -/
def oncillaOne {T : Type} (roots : List String → Except PyErr (List T)) (post : T → Except PyErr T) (suppress : Bool) (s : List String) : Except PyErr (Option T) :=
  match roots s with
  | .error _ => if suppress then .ok none else .error .parseError
  | .ok [t] =>
    match post t with
    | .error e => .error e
    | .ok t => .ok (some t)
  | .ok _ => if suppress then .ok none else .error .parseError

/-- oncilla_parser.py:171-215 -/
def oncillaLoop {T : Type} (roots : List String → Except PyErr (List T)) (post : T → Except PyErr T) (suppress : Bool) :
    List (List String) → Except PyErr (List (Option T))
  | [] => .ok []
  | s :: ss =>
    match oncillaOne roots post suppress s with
    | .error e => .error e
    | .ok t =>
      match oncillaLoop roots post suppress ss with
      | .error e => .error e
      | .ok ts => .ok (t :: ts)

/-- oncilla_parser.py:115-220 -/
def oncillaTrees {T : Type} (split : String → List String) (roots : List String → Except PyErr (List T)) (post : T → Except PyErr T)
    (tokenised suppress : Bool) (sentences : List Input) : Except PyErr (List (Option T)) :=
  match validate split tokenised suppress sentences with
  | .error e => .error e
  | .ok (valid, is) =>
    match oncillaLoop roots post suppress valid with
    | .error e => .error e
    | .ok ts => .ok (reinsert ts is)

/-- ccg_parser.py:171-196 (oncilla_parser.py:309-333 is the same, with a parse error). -/
def diagramLoop {T D : Type} (toDiagram : T → Except PyErr D) (suppress : Bool) : List (Option T) → Except PyErr (List (Option D))
  | [] => .ok []
  | none :: ts =>
    match diagramLoop toDiagram suppress ts with
    | .error e => .error e
    | .ok ds => .ok (none :: ds)
  | some t :: ts =>
    match toDiagram t with
    | .ok d =>
      match diagramLoop toDiagram suppress ts with
      | .error e => .error e
      | .ok ds => .ok (some d :: ds)
    | .error e =>
      if suppress then
        match diagramLoop toDiagram suppress ts with
        | .error e => .error e
        | .ok ds => .ok (none :: ds)
      else .error e

/-- ccg_parser.py:127-196, with the trees of Bobcat. -/
def bobcatDiagrams {U T D : Type} (split : String → List String) (tag : List (List String) → Except PyErr (List U)) (parse : U → Except PyErr T)
    (toDiagram : T → Except PyErr D) (tokenised suppress : Bool) (sentences : List Input) : Except PyErr (List (Option D)) :=
  match bobcatTrees split tag parse tokenised suppress sentences with
  | .error e => .error e
  | .ok ts => diagramLoop toDiagram suppress ts

/-- ccg_parser.py:198-255: the type check of the sentence and the first item of the result. -/
def bobcatDiagram {U T D : Type} (split : String → List String) (tag : List (List String) → Except PyErr (List U)) (parse : U → Except PyErr T)
    (toDiagram : T → Except PyErr D) (tokenised suppress : Bool) (sentence : Input) : Except PyErr (Option D) :=
  match tokenised, sentence with
  | true, .str _ => .error .valueError
  | false, .tokens _ => .error .valueError
  | _, _ =>
    match bobcatDiagrams split tag parse toDiagram tokenised suppress [sentence] with
    | .error e => .error e
    | .ok (d :: _) => .ok d
    | .ok [] => .error .indexError

/-- depccg_parser.py:252-294. The first component is the list that the caller passed, after the call: with `tokenised=True` the sentences are
deleted from the very list of the caller (line 278), with `tokenised=False` from a copy. -/
def depccgTrees {T : Type} (split : String → List String) (parse : List String → Except PyErr T) (tokenised suppress : Bool) (sentences : List Input) :
    List Input × Except PyErr (List (Option T)) :=
  match tokenise split tokenised sentences with
  | .error e => (sentences, .error e)
  | .ok ts =>
    match emptyIndices suppress 0 ts with
    | .error e => (sentences, .error e)
    | .ok is =>
      let caller := if tokenised then delAll sentences is.reverse else sentences
      match parseLoop parse suppress (delAll ts is.reverse) with
      | .error e => (caller, .error e)
      | .ok trees => (caller, .ok (reinsert trees is))

/-! ## Specification -/

/-- The tokens of a sentence, if it is of the type that `tokenised` promises. -/
def Input.tokensOf (split : String → List String) : Bool → Input → Option (List String)
  | true, .tokens l => some l
  | false, .str s => some (split s)
  | _, _ => none

/-! ## Proofs -/

theorem tokenise_ok (split : String → List String) (tokenised : Bool) (sentences : List Input) (ts : List (List String)) :
    tokenise split tokenised sentences = .ok ts ↔ List.Forall₂ (fun s t => s.tokensOf split tokenised = some t) sentences ts := by
  cases tokenised with
  | true =>
    simp only [tokenise, if_true]
    induction sentences generalizing ts with
    | nil => simp only [asTokens, Except.ok.injEq, List.forall₂_nil_left_iff]; exact eq_comm
    | cons s ss ih =>
      cases s with
      | str s => simp [asTokens, Input.tokensOf]; intro h; cases h; simp_all
      | tokens l =>
        simp only [asTokens]
        cases h : asTokens ss with
        | error e =>
          simp only [reduceCtorEq, false_iff]
          intro hf; cases hf with
          | cons h1 h2 => rw [(ih _).2 h2] at h; cases h
        | ok ls =>
          simp only [Except.ok.injEq]
          constructor
          · rintro rfl; exact .cons rfl ((ih _).1 h)
          · intro hf; cases hf with
            | cons h1 h2 =>
              have := (ih _).2 h2
              rw [h] at this; cases this
              simp only [Input.tokensOf, Option.some.injEq] at h1; rw [h1]
  | false =>
    simp only [tokenise, Bool.false_eq_true, if_false]
    induction sentences generalizing ts with
    | nil => simp only [asSplit, Except.ok.injEq, List.forall₂_nil_left_iff]; exact eq_comm
    | cons s ss ih =>
      cases s with
      | tokens s => simp [asSplit, Input.tokensOf]; intro h; cases h; simp_all
      | str l =>
        simp only [asSplit]
        cases h : asSplit split ss with
        | error e =>
          simp only [reduceCtorEq, false_iff]
          intro hf; cases hf with
          | cons h1 h2 => rw [(ih _).2 h2] at h; cases h
        | ok ls =>
          simp only [Except.ok.injEq]
          constructor
          · rintro rfl; exact .cons rfl ((ih _).1 h)
          · intro hf; cases hf with
            | cons h1 h2 =>
              have := (ih _).2 h2
              rw [h] at this; cases this
              simp only [Input.tokensOf, Option.some.injEq] at h1; rw [h1]

theorem tokenise_error (split : String → List String) (tokenised : Bool) (sentences : List Input) (e : PyErr)
    (h : tokenise split tokenised sentences = .error e) : e = .valueError := by
  cases tokenised with
  | true =>
    simp only [tokenise, if_true] at h
    induction sentences with
    | nil => simp [asTokens] at h
    | cons s ss ih =>
      cases s with
      | str s => simp [asTokens] at h; exact h.symm
      | tokens l =>
        simp only [asTokens] at h
        split at h
        · rename_i e' he; cases h; exact ih he
        · cases h
  | false =>
    simp only [tokenise, Bool.false_eq_true, if_false] at h
    induction sentences with
    | nil => simp [asSplit] at h
    | cons s ss ih =>
      cases s with
      | tokens s => simp [asSplit] at h; exact h.symm
      | str l =>
        simp only [asSplit] at h
        split at h
        · rename_i e' he; cases h; exact ih he
        · cases h

/-- The indices of the empty sentences, from `i` on. -/
def empties : Nat → List (List String) → List Nat
  | _, [] => []
  | i, s :: rest => if s = [] then i :: empties (i + 1) rest else empties (i + 1) rest

theorem emptyIndices_suppress (i : Nat) (ts : List (List String)) : emptyIndices true i ts = .ok (empties i ts) := by
  induction ts generalizing i with
  | nil => rfl
  | cons s rest ih =>
    simp only [emptyIndices, empties, ih, if_true]
    split <;> rfl

theorem emptyIndices_raise (i : Nat) (ts : List (List String)) :
    ((∀ s ∈ ts, s ≠ []) → emptyIndices false i ts = .ok []) ∧ ((∃ s ∈ ts, s = []) → emptyIndices false i ts = .error .valueError) := by
  induction ts generalizing i with
  | nil => simp [emptyIndices]
  | cons s rest ih =>
    obtain ⟨h1, h2⟩ := ih (i + 1)
    by_cases hs : s = []
    · subst hs
      exact ⟨fun h => absurd rfl (h [] (by simp)), fun _ => by simp [emptyIndices]⟩
    · simp only [emptyIndices, hs, if_false]
      refine ⟨fun h => h1 (fun s hs => h s (List.mem_cons_of_mem _ hs)), ?_⟩
      rintro ⟨s', hs', he⟩
      rcases List.mem_cons.1 hs' with rfl | hs'
      · exact absurd he hs
      · exact h2 ⟨s', hs', he⟩

theorem empties_shift (i : Nat) (ts : List (List String)) : empties (i + 1) ts = (empties i ts).map (· + 1) := by
  induction ts generalizing i with
  | nil => rfl
  | cons s rest ih =>
    simp only [empties]
    split
    · simp [ih]
    · exact ih _

theorem delAll_append {A : Type} (l : List A) (is js : List Nat) : delAll l (is ++ js) = delAll (delAll l is) js := by
  induction is generalizing l with
  | nil => rfl
  | cons i is ih => exact ih _

theorem delAll_succ {A : Type} (a : A) (l : List A) (is : List Nat) : delAll (a :: l) (is.map (· + 1)) = a :: delAll l is := by
  induction is generalizing l with
  | nil => rfl
  | cons i is ih => simp only [List.map_cons, delAll, List.eraseIdx_cons_succ]; exact ih _

/-- Deleting the empty ones leaves the others, in order; stated for a list `l` that runs along. -/
theorem delAll_empties {A : Type} (l : List A) (ts : List (List String)) (h : l.length = ts.length) :
    delAll l (empties 0 ts).reverse = ((l.zip ts).filter (fun p => decide (p.2 ≠ []))).map Prod.fst := by
  induction ts generalizing l with
  | nil => cases l with
    | nil => rfl
    | cons a l => simp at h
  | cons s rest ih =>
    cases l with
    | nil => simp at h
    | cons a l =>
      have hl : l.length = rest.length := by simpa using h
      simp only [empties, empties_shift, List.zip_cons_cons]
      by_cases hs : s = []
      · simp only [hs, if_true, List.reverse_cons, ← List.map_reverse, delAll_append, delAll_succ, ih l hl]
        simp [delAll]
      · simp only [hs, if_false, ← List.map_reverse, delAll_succ, ih l hl]
        simp [hs]

theorem delAll_empties_self (ts : List (List String)) : delAll ts (empties 0 ts).reverse = ts.filter (fun s => decide (s ≠ [])) := by
  rw [delAll_empties ts ts rfl]
  induction ts with
  | nil => rfl
  | cons s rest ih => by_cases hs : s = [] <;> simp_all

theorem reinsert_succ {A : Type} (a : Option A) (l : List (Option A)) (is : List Nat) : reinsert (a :: l) (is.map (· + 1)) = a :: reinsert l is := by
  induction is generalizing l with
  | nil => rfl
  | cons i is ih => simp only [List.map_cons, reinsert, pyInsert, List.take_succ_cons, List.drop_succ_cons, List.cons_append]; exact ih _

/-- `Aligned R ts rs`: there is one result for every sentence: `None` for an empty one, and one that is `R`-related otherwise. -/
inductive Aligned {A : Type} (R : List String → Option A → Prop) : List (List String) → List (Option A) → Prop
  | nil : Aligned R [] []
  | empty {ts rs} : Aligned R ts rs → Aligned R ([] :: ts) (none :: rs)
  | cons {s ts r rs} : s ≠ [] → R s r → Aligned R ts rs → Aligned R (s :: ts) (r :: rs)

theorem reinsert_aligned {A : Type} (R : List String → Option A → Prop) (ts : List (List String)) (rs : List (Option A))
    (h : List.Forall₂ R (ts.filter (fun s => decide (s ≠ []))) rs) : Aligned R ts (reinsert rs (empties 0 ts)) := by
  induction ts generalizing rs with
  | nil => cases h; exact .nil
  | cons s rest ih =>
    by_cases hs : s = []
    · subst hs
      simp only [empties, if_true, empties_shift, reinsert, pyInsert, List.take_zero, List.drop_zero, List.nil_append]
      rw [reinsert_succ]
      exact .empty (ih rs (by simpa using h))
    · simp only [empties, hs, if_false, empties_shift]
      rw [List.filter_cons_of_pos (by simpa using hs)] at h
      cases h with
      | cons h1 h2 => rw [reinsert_succ]; exact .cons hs h1 (ih _ h2)

theorem aligned_getElem {A : Type} {R : List String → Option A → Prop} {ts : List (List String)} {rs : List (Option A)} (h : Aligned R ts rs) :
    rs.length = ts.length ∧ ∀ (n : Nat) s, ts[n]? = some s → (s = [] → rs[n]? = some none) ∧ (s ≠ [] → ∃ r, rs[n]? = some r ∧ R s r) := by
  induction h with
  | nil => simp
  | empty _ ih =>
    refine ⟨by simp [ih.1], ?_⟩
    intro n s hs
    cases n with
    | zero => simp only [List.getElem?_cons_zero, Option.some.injEq] at hs; subst hs; simp
    | succ n => simpa using ih.2 n s (by simpa using hs)
  | cons hne hr _ ih =>
    refine ⟨by simp [ih.1], ?_⟩
    intro n s hs
    cases n with
    | zero => simp only [List.getElem?_cons_zero, Option.some.injEq] at hs; subst hs; exact ⟨fun h => absurd h hne, fun _ => ⟨_, by simp, hr⟩⟩
    | succ n => simpa using ih.2 n s (by simpa using hs)

theorem parseLoop_suppress {U T : Type} (parse : U → Except PyErr T) (us : List U) : parseLoop parse true us = .ok (us.map (fun u => (parse u).toOption)) := by
  induction us with
  | nil => rfl
  | cons u us ih =>
    simp only [parseLoop]
    cases h : parse u <;> simp [ih, h, Except.toOption]

theorem parseLoop_raise {U T : Type} (parse : U → Except PyErr T) (us : List U) :
    ((∀ u ∈ us, ∃ t, parse u = .ok t) → parseLoop parse false us = .ok (us.map (fun u => (parse u).toOption))) ∧
    ((∃ u ∈ us, ∃ e, parse u = .error e) → parseLoop parse false us = .error .parseError) := by
  induction us with
  | nil => simp [parseLoop]
  | cons u us ih =>
    simp only [parseLoop]
    cases h : parse u with
    | error e =>
      refine ⟨?_, fun _ => by simp⟩
      intro hall
      obtain ⟨t, ht⟩ := hall u (by simp)
      rw [h] at ht; cases ht
    | ok t =>
      simp only
      refine ⟨?_, ?_⟩
      · intro hall
        rw [ih.1 (fun u hu => hall u (List.mem_cons_of_mem _ hu))]
        simp [h, Except.toOption]
      · rintro ⟨u', hu', e, he⟩
        rcases List.mem_cons.1 hu' with rfl | hu'
        · rw [h] at he; cases he
        · rw [ih.2 ⟨u', hu', e, he⟩]

theorem validate_suppress {split : String → List String} {tokenised : Bool} {sentences : List Input} {ts : List (List String)}
    (h : List.Forall₂ (fun s t => s.tokensOf split tokenised = some t) sentences ts) :
    validate split tokenised true sentences = .ok (ts.filter (fun s => decide (s ≠ [])), empties 0 ts) := by
  simp only [validate, (tokenise_ok _ _ _ _).2 h, emptyIndices_suppress, delAll_empties_self]

/-- The tagger keeps the sentences: one result for every sentence of the batch, in order, with its words. -/
def TagsInOrder {U : Type} (words : U → List String) (tag : List (List String) → Except PyErr (List U)) : Prop := ∀ b, ∃ us, tag b = .ok us ∧ us.map words = b

theorem map_words_forall {U T : Type} {words : U → List String} {us : List U} {b : List (List String)} (h : us.map words = b) (f : U → T) (P : U → Prop) (hP : ∀ u ∈ us, P u) :
    List.Forall₂ (fun s r => ∃ u, P u ∧ words u = s ∧ r = f u) b (us.map f) := by
  subst h
  induction us with
  | nil => exact .nil
  | cons u us ih => exact .cons ⟨u, hP u (by simp), rfl, rfl⟩ (ih (fun u hu => hP u (List.mem_cons_of_mem _ hu)))

/-- **C64 (suppressing exceptions).** For every batch of sentences of the promised type, with `suppress_exceptions=True`: no exception; one
result for every sentence; the `n`-th result is `None` if the `n`-th sentence is empty, and otherwise the result of parsing a tagged sentence
with the words of the `n`-th sentence, or `None` if that raises. -/
theorem C64_suppress {U T : Type} (split : String → List String) (words : U → List String) (tag : List (List String) → Except PyErr (List U))
    (htag : TagsInOrder words tag) (parse : U → Except PyErr T) (tokenised : Bool) (sentences : List Input) (ts : List (List String))
    (hts : List.Forall₂ (fun s t => s.tokensOf split tokenised = some t) sentences ts) :
    ∃ out, bobcatTrees split tag parse tokenised true sentences = .ok out ∧ out.length = sentences.length ∧
      ∀ (n : Nat) s, ts[n]? = some s → (s = [] → out[n]? = some none) ∧ (s ≠ [] → ∃ u, words u = s ∧ out[n]? = some (parse u).toOption) := by
  have hal : ∃ out, parseValid tag parse true (ts.filter (fun s => decide (s ≠ []))) = .ok out ∧
      List.Forall₂ (fun s r => ∃ u, words u = s ∧ r = (parse u).toOption) (ts.filter (fun s => decide (s ≠ []))) out := by
    unfold parseValid
    by_cases hv : ts.filter (fun s => decide (s ≠ [])) = []
    · rw [if_pos hv, hv]; exact ⟨[], rfl, .nil⟩
    · obtain ⟨us, hus, hw⟩ := htag (ts.filter (fun s => decide (s ≠ [])))
      rw [if_neg hv, hus]
      simp only [parseLoop_suppress]
      exact ⟨_, rfl, (map_words_forall hw (fun u => (parse u).toOption) (fun _ => True) (by simp)).imp (fun _ _ ⟨u, _, h⟩ => ⟨u, h⟩)⟩
  obtain ⟨rs, hrs, hf⟩ := hal
  refine ⟨reinsert rs (empties 0 ts), by simp only [bobcatTrees, validate_suppress hts, hrs], ?_⟩
  obtain ⟨h1, h2⟩ := aligned_getElem (reinsert_aligned _ ts rs hf)
  refine ⟨by rw [h1, hts.length_eq], ?_⟩
  intro n s hs
  obtain ⟨h3, h4⟩ := h2 n s hs
  refine ⟨h3, fun hne => ?_⟩
  obtain ⟨r, hr, u, hu, rfl⟩ := h4 hne
  exact ⟨u, hu, hr⟩

/-- **C64 (raising).** With `suppress_exceptions=False`: a result means that no sentence is empty and that the `n`-th result is the tree of a
tagged sentence with the words of the `n`-th sentence; and if some sentence is not of the promised type or empty, the call raises ValueError. -/
theorem C64_raise {U T : Type} (split : String → List String) (words : U → List String) (tag : List (List String) → Except PyErr (List U))
    (htag : TagsInOrder words tag) (parse : U → Except PyErr T) (tokenised : Bool) (sentences : List Input) :
    (∀ out, bobcatTrees split tag parse tokenised false sentences = .ok out →
      out.length = sentences.length ∧ ∀ (n : Nat) s, sentences[n]? = some s → ∃ toks u t, s.tokensOf split tokenised = some toks ∧ toks ≠ [] ∧
        words u = toks ∧ parse u = .ok t ∧ out[n]? = some (some t)) ∧
    ((∃ s ∈ sentences, s.tokensOf split tokenised = none ∨ s.tokensOf split tokenised = some []) →
      bobcatTrees split tag parse tokenised false sentences = .error .valueError) := by
  cases hk : tokenise split tokenised sentences with
  | error e =>
    have he := tokenise_error _ _ _ _ hk
    subst he
    have hr : bobcatTrees split tag parse tokenised false sentences = .error .valueError := by simp only [bobcatTrees, validate, hk]
    exact ⟨fun out h => (by rw [hr] at h; cases h), fun _ => hr⟩
  | ok ts =>
    have hts := (tokenise_ok _ _ _ _).1 hk
    by_cases hem : ∃ s ∈ ts, s = []
    · have hr : bobcatTrees split tag parse tokenised false sentences = .error .valueError := by
        simp only [bobcatTrees, validate, hk, (emptyIndices_raise 0 ts).2 hem]
      exact ⟨fun out h => (by rw [hr] at h; cases h), fun _ => hr⟩
    · have hne : ∀ s ∈ ts, s ≠ [] := fun s hs he => hem ⟨s, hs, he⟩
      have hv : validate split tokenised false sentences = .ok (ts, []) := by
        simp only [validate, hk, (emptyIndices_raise 0 ts).1 hne, List.reverse_nil, delAll]
      refine ⟨?_, ?_⟩
      · intro out hout
        simp only [bobcatTrees, hv, reinsert] at hout
        have hf : List.Forall₂ (fun s r => ∃ u, (∃ t, parse u = .ok t) ∧ words u = s ∧ r = (parse u).toOption) ts out := by
          unfold parseValid at hout
          by_cases hv : ts = []
          · rw [if_pos hv] at hout
            cases hout
            rw [hv]; exact .nil
          · obtain ⟨us, hus, hw⟩ := htag ts
            rw [if_neg hv, hus] at hout
            simp only at hout
            have hall : ∀ u ∈ us, ∃ t, parse u = .ok t := by
              intro u hu
              cases hp : parse u with
              | ok t => exact ⟨t, rfl⟩
              | error e => rw [(parseLoop_raise parse us).2 ⟨u, hu, e, hp⟩] at hout; cases hout
            rw [(parseLoop_raise parse us).1 hall] at hout
            cases hout
            exact map_words_forall hw (fun u => (parse u).toOption) (fun u => ∃ t, parse u = .ok t) hall
        refine ⟨by rw [← hf.length_eq, hts.length_eq], ?_⟩
        intro n s hs
        have hlt : n < sentences.length := (List.getElem?_eq_some_iff.1 hs).1
        have hlt' : n < ts.length := by rw [← hts.length_eq]; exact hlt
        have hlt'' : n < out.length := by rw [← hf.length_eq]; exact hlt'
        have h1 := List.Forall₂.get hts hlt hlt'
        obtain ⟨u, ⟨t, ht⟩, hw, hr⟩ := List.Forall₂.get hf hlt' hlt''
        simp only [List.get_eq_getElem] at h1 hw hr
        have hse : sentences[n] = s := by rw [List.getElem?_eq_getElem hlt] at hs; simpa using hs
        rw [hse] at h1
        refine ⟨ts[n], u, t, h1, hne _ (List.getElem_mem _), hw, ht, ?_⟩
        rw [List.getElem?_eq_getElem hlt'', hr, ht]; rfl
      · rintro ⟨s, hs, hbad⟩
        exfalso
        obtain ⟨n, hn, rfl⟩ := List.getElem_of_mem hs
        have hlt' : n < ts.length := by rw [← hts.length_eq]; exact hn
        have h1 := List.Forall₂.get hts hn hlt'
        simp only [List.get_eq_getElem] at h1
        rcases hbad with hb | hb
        · rw [hb] at h1; cases h1
        · rw [hb] at h1
          simp only [Option.some.injEq] at h1
          exact hne _ (List.getElem_mem hlt') h1.symm

theorem diagramLoop_suppress {T D : Type} (toDiagram : T → Except PyErr D) (ts : List (Option T)) :
    diagramLoop toDiagram true ts = .ok (ts.map (fun t => t.bind (fun t => (toDiagram t).toOption))) := by
  induction ts with
  | nil => rfl
  | cons t ts ih =>
    cases t with
    | none => simp [diagramLoop, ih]
    | some t =>
      simp only [diagramLoop]
      cases h : toDiagram t <;> simp [ih, h, Except.toOption]

/-- **C64 (diagrams).** The same for diagrams: with exceptions suppressed there is one diagram or `None` for every sentence, in order. -/
theorem C64_diagrams {U T D : Type} (split : String → List String) (words : U → List String) (tag : List (List String) → Except PyErr (List U))
    (htag : TagsInOrder words tag) (parse : U → Except PyErr T) (toDiagram : T → Except PyErr D) (tokenised : Bool) (sentences : List Input)
    (ts : List (List String)) (hts : List.Forall₂ (fun s t => s.tokensOf split tokenised = some t) sentences ts) :
    ∃ out, bobcatDiagrams split tag parse toDiagram tokenised true sentences = .ok out ∧ out.length = sentences.length ∧
      ∀ (n : Nat) s, ts[n]? = some s → (s = [] → out[n]? = some none) ∧
        (s ≠ [] → ∃ u, words u = s ∧ out[n]? = some ((parse u).toOption.bind (fun t => (toDiagram t).toOption))) := by
  obtain ⟨rs, h1, h2, h3⟩ := C64_suppress split words tag htag parse tokenised sentences ts hts
  refine ⟨rs.map (fun t => t.bind (fun t => (toDiagram t).toOption)), by simp only [bobcatDiagrams, h1, diagramLoop_suppress], by simp [h2], ?_⟩
  intro n s hs
  obtain ⟨h4, h5⟩ := h3 n s hs
  refine ⟨fun h => by simp [h4 h], fun h => ?_⟩
  obtain ⟨u, hu, hr⟩ := h5 h
  exact ⟨u, hu, by simp [hr]⟩

/-- **C64 (one sentence).** Parsing one sentence of the promised type with exceptions suppressed does not raise, and gives the item that the
batch of this sentence gives. -/
theorem C64_single {U T D : Type} (split : String → List String) (words : U → List String) (tag : List (List String) → Except PyErr (List U))
    (htag : TagsInOrder words tag) (parse : U → Except PyErr T) (toDiagram : T → Except PyErr D) (tokenised : Bool) (sentence : Input)
    (toks : List String) (h : sentence.tokensOf split tokenised = some toks) :
    ∃ d, bobcatDiagram split tag parse toDiagram tokenised true sentence = .ok d ∧ (toks = [] → d = none) ∧
      (toks ≠ [] → ∃ u, words u = toks ∧ d = (parse u).toOption.bind (fun t => (toDiagram t).toOption)) := by
  obtain ⟨out, h1, h2, h3⟩ := C64_diagrams split words tag htag parse toDiagram tokenised [sentence] [toks] (.cons h .nil)
  cases out with
  | nil => simp at h2
  | cons d ds =>
    obtain ⟨h4, h5⟩ := h3 0 toks rfl
    refine ⟨d, ?_, fun he => by simpa using h4 he, fun hne => ?_⟩
    · unfold bobcatDiagram
      cases tokenised <;> cases sentence <;> simp_all [Input.tokensOf]
    · obtain ⟨u, hu, hr⟩ := h5 hne
      exact ⟨u, hu, by simpa using hr⟩

theorem oncillaLoop_suppress {T : Type} (roots : List String → Except PyErr (List T)) (post : T → Except PyErr T) (hpost : ∀ t, ∃ t', post t = .ok t') (ss : List (List String)) :
    ∃ out, oncillaLoop roots post true ss = .ok out ∧
      List.Forall₂ (fun s r => ∀ t, r = some t ↔ ∃ t0, roots s = .ok [t0] ∧ post t0 = .ok t) ss out := by
  induction ss with
  | nil => exact ⟨[], rfl, .nil⟩
  | cons s ss ih =>
    obtain ⟨out, h1, h2⟩ := ih
    have : ∃ r, oncillaOne roots post true s = .ok r ∧ ∀ t, r = some t ↔ ∃ t0, roots s = .ok [t0] ∧ post t0 = .ok t := by
      unfold oncillaOne
      cases hr : roots s with
      | error e => exact ⟨none, rfl, by simp⟩
      | ok l =>
        match l with
        | [] => exact ⟨none, rfl, by simp⟩
        | [t] =>
          obtain ⟨t', ht'⟩ := hpost t
          exact ⟨some t', by simp [ht'], by simp [ht', eq_comm]⟩
        | a :: b :: c => exact ⟨none, rfl, by simp⟩
    obtain ⟨r, hr1, hr2⟩ := this
    exact ⟨r :: out, by simp only [oncillaLoop, hr1, h1], .cons hr2 h2⟩

/-- **C64 (Oncilla).** With exceptions suppressed (and a cycle removal that does not raise): one result for every sentence, in order; it is a
tree exactly if the sentence is not empty and has exactly one root, and then it is this tree. -/
theorem C64_oncilla {T : Type} (split : String → List String) (roots : List String → Except PyErr (List T)) (post : T → Except PyErr T)
    (hpost : ∀ t, ∃ t', post t = .ok t') (tokenised : Bool) (sentences : List Input) (ts : List (List String))
    (hts : List.Forall₂ (fun s t => s.tokensOf split tokenised = some t) sentences ts) :
    ∃ out, oncillaTrees split roots post tokenised true sentences = .ok out ∧ out.length = sentences.length ∧
      ∀ (n : Nat) s, ts[n]? = some s → ∀ t, out[n]? = some (some t) ↔ s ≠ [] ∧ ∃ t0, roots s = .ok [t0] ∧ post t0 = .ok t := by
  obtain ⟨rs, hrs, hf⟩ := oncillaLoop_suppress roots post hpost (ts.filter (fun s => decide (s ≠ [])))
  refine ⟨reinsert rs (empties 0 ts), by simp only [oncillaTrees, validate_suppress hts, hrs], ?_⟩
  obtain ⟨h1, h2⟩ := aligned_getElem (reinsert_aligned _ ts rs hf)
  refine ⟨by rw [h1, hts.length_eq], ?_⟩
  intro n s hs t
  obtain ⟨h3, h4⟩ := h2 n s hs
  by_cases he : s = []
  · simp [h3 he, he]
  · obtain ⟨r, hr, hrt⟩ := h4 he
    rw [hr]
    simp only [Option.some.injEq, hrt, ne_eq, he, not_false_eq_true, true_and]

/-- **C64 (DepCCG), part.** The trees of DepCCG are aligned in the same way. What is missing: the caller's list is left unchanged (next theorem). -/
theorem C64_depccg_partial {T : Type} (split : String → List String) (parse : List String → Except PyErr T) (tokenised : Bool) (sentences : List Input)
    (ts : List (List String)) (hts : List.Forall₂ (fun s t => s.tokensOf split tokenised = some t) sentences ts) :
    ∃ out, (depccgTrees split parse tokenised true sentences).2 = .ok out ∧ out.length = sentences.length ∧
      (∀ (n : Nat) s, ts[n]? = some s → (s = [] → out[n]? = some none) ∧ (s ≠ [] → out[n]? = some (parse s).toOption)) ∧
      ((tokenised = false ∨ ∀ s ∈ ts, s ≠ []) → (depccgTrees split parse tokenised true sentences).1 = sentences) := by
  have hval : depccgTrees split parse tokenised true sentences = (if tokenised then delAll sentences (empties 0 ts).reverse else sentences,
      .ok (reinsert ((ts.filter (fun s => decide (s ≠ []))).map (fun u => (parse u).toOption)) (empties 0 ts))) := by
    simp only [depccgTrees, (tokenise_ok _ _ _ _).2 hts, emptyIndices_suppress, parseLoop_suppress, delAll_empties_self]
  rw [hval]
  have hf : List.Forall₂ (fun s r => r = (parse s).toOption) (ts.filter (fun s => decide (s ≠ []))) ((ts.filter (fun s => decide (s ≠ []))).map (fun u => (parse u).toOption)) := by
    generalize ts.filter (fun s => decide (s ≠ [])) = l
    induction l with
    | nil => exact .nil
    | cons a l ih => exact .cons rfl ih
  obtain ⟨h1, h2⟩ := aligned_getElem (reinsert_aligned _ ts _ hf)
  refine ⟨_, rfl, by rw [h1, hts.length_eq], ?_, ?_⟩
  · intro n s hs
    obtain ⟨h3, h4⟩ := h2 n s hs
    refine ⟨h3, fun hne => ?_⟩
    obtain ⟨r, hr, rfl⟩ := h4 hne
    exact hr
  · rintro (h | h)
    · simp [h]
    · have : empties 0 ts = [] := by
        have hh := (emptyIndices_raise 0 ts).1 h
        clear hval hf h1 h2 hts hh
        generalize 0 = i
        induction ts generalizing i with
        | nil => rfl
        | cons s rest ih => simp only [empties, h s (by simp), if_false]; exact ih (fun s hs => h s (List.mem_cons_of_mem _ hs)) _
      simp [this, delAll]

/-- DepCCG with `tokenised=True` deletes the empty sentences from the list of the caller. -/
theorem C64_refuted_depccg_argument : ∃ sentences : List Input,
    (depccgTrees (T := Nat) (fun _ => []) (fun s => .ok s.length) true true sentences).1 ≠ sentences ∧
    (depccgTrees (T := Nat) (fun _ => []) (fun s => .ok s.length) true true sentences).2.toOption = some [none, some 1] :=
  ⟨[.tokens [], .tokens ["a"]], by decide +kernel, by decide +kernel⟩

/-- In Oncilla an exception of the cycle removal is raised although exceptions are suppressed. -/
theorem C64_refuted_oncilla_cycles : ∃ (roots : List String → Except PyErr (List Nat)) (post : Nat → Except PyErr Nat),
    (oncillaTrees (fun _ => []) roots post true true [.tokens ["a"]]).toOption = none :=
  ⟨fun _ => .ok [0], fun _ => .error .runtimeError, by decide +kernel⟩

/-- The hypotheses hold for a batch with empty sentences, where the second sentence fails to parse. -/
example : TagsInOrder (U := List String) id (fun b => .ok b) ∧
    List.Forall₂ (fun (s : Input) t => s.tokensOf (fun _ => []) true = some t) [.tokens [], .tokens ["a"], .tokens ["b", "c"], .tokens []] [[], ["a"], ["b", "c"], []] ∧
    (bobcatTrees (fun _ => []) (fun b => .ok b) (fun s : List String => if s = ["a"] then .error .valueError else .ok s.length) true true
      [.tokens [], .tokens ["a"], .tokens ["b", "c"], .tokens []]).toOption = some [none, none, some 2, none] :=
  ⟨fun b => ⟨b, rfl, by simp⟩, by decide +kernel, by decide +kernel⟩

end Batch
end Lambeq
