import Verif.Text.Batch

/-!
# The web parser (C105)

Models text2diagram/web_parser.py (32-36, 52-169). The service is arbitrary: the answer may depend on the number of the request (its history). `str.split`, `str.lower` and `CCGTree.from_json` are parameters.
Requests are recorded in the order in which they are sent. The check of the verbosity and progress output are left out. `requests.RequestException` is `runtimeError` here, `WebParseError` is `parseError`.
-/

namespace Lambeq
namespace Web
open Batch
set_option linter.unusedSimpArgs false

/-- What a request leads to: an exception, a text that is not JSON, or data. -/
inductive Reply (J : Type)
  | failed
  | noJson
  | data (j : J)

/-- web_parser.py:66-69: the URL for a name. -/
def serviceUrl (lower : String → String) (urls : List (String × String)) (name : String) : Except PyErr String :=
  if (urls.map Prod.fst).contains (lower name) then
    match urls.lookup name with
    | some u => .ok u
    | none => .error .keyError
  else .error .valueError

/-- `' '.join` -/
def joinWords (l : List String) : String := String.intercalate " " l

/-- web_parser.py:119-131: the texts that are sent. -/
def texts (split : String → List String) (tokenised : Bool) (sentences : List Input) : Except PyErr (List String) :=
  match tokenise split tokenised sentences with
  | .error e => .error e
  | .ok ts => .ok (ts.map joinWords)

/-- web_parser.py:132-138: the loop from index `i` on. -/
def blanks (suppress : Bool) : Nat → List String → Except PyErr (List Nat)
  | _, [] => .ok []
  | i, s :: rest =>
    if s = "" then
      if suppress then
        match blanks suppress (i + 1) rest with
        | .error e => .error e
        | .ok is => .ok (i :: is)
      else .error .valueError
    else blanks suppress (i + 1) rest

/-- web_parser.py:153-163: what is done with an answer. -/
def handle {J T : Type} (fromJson : J → Except PyErr (Option T)) (suppress : Bool) : Reply J → Except PyErr (Option T)
  | .failed => if suppress then .ok none else .error .runtimeError
  | .noJson => if suppress then .ok none else .error .parseError
  | .data j => fromJson j

/-- web_parser.py:146-164 from request number `k` on: the result, and the requests. -/
def loop {J T : Type} (service : Nat → String → Reply J) (fromJson : J → Except PyErr (Option T)) (suppress : Bool) : Nat → List String → Except PyErr (List (Option T)) × List String
  | _, [] => (.ok [], [])
  | k, s :: ss =>
    match handle fromJson suppress (service k s) with
    | .error e => (.error e, [s])
    | .ok t =>
      match loop service fromJson suppress (k + 1) ss with
      | (.error e, l) => (.error e, s :: l)
      | (.ok ts, l) => (.ok (t :: ts), s :: l)

/-- web_parser.py:75-169: the result, and the requests. -/
def webTrees {J T : Type} (split : String → List String) (service : Nat → String → Reply J) (fromJson : J → Except PyErr (Option T)) (tokenised suppress : Bool) (sentences : List Input) :
    Except PyErr (List (Option T)) × List String :=
  match texts split tokenised sentences with
  | .error e => (.error e, [])
  | .ok ss => match blanks suppress 0 ss with
    | .error e => (.error e, [])
    | .ok is => match loop service fromJson suppress 0 (delAll ss is.reverse) with
      | (.error e, l) => (.error e, l)
      | (.ok ts, l) => (.ok (reinsert ts is), l)

/-! ## Specification -/

/-- The text for a sentence, if it has the type that `tokenised` asks for. -/
def textOf (split : String → List String) : Bool → Input → Option String
  | true, .tokens l => some (joinWords l)
  | false, .str s => some (joinWords (split s))
  | _, _ => none

/-- The number of the request for text `i`: blank texts are not sent. -/
def requestNo (ss : List String) (i : Nat) : Nat := ((ss.take i).filter (fun s => decide (s ≠ ""))).length

/-! ## Proofs -/

theorem tokenise_texts (split : String → List String) (b : Bool) (sentences : List Input) (ss : List String) :
    texts split b sentences = .ok ss ↔ sentences.map (textOf split b) = ss.map some := by
  have key : ∀ (sentences : List Input) (ss : List String), (match tokenise split b sentences with | .error e => Except.error e | .ok ts => .ok (ts.map joinWords)) = (.ok ss : Except PyErr _) ↔
      sentences.map (textOf split b) = ss.map some := by
    intro sentences
    induction sentences with
    | nil => intro ss; cases b <;> cases ss <;> simp [tokenise, asTokens, asSplit]
    | cons x rest ih =>
      intro ss
      cases b <;> cases x <;> simp only [tokenise, asTokens, asSplit, textOf, if_true, if_false, Bool.false_eq_true, List.map_cons] at ih ⊢
      · rename_i s
        cases h : asSplit split rest with
        | error e =>
          rw [h] at ih
          cases ss with
          | nil => simp
          | cons y ss => have := ih ss; simp at this ⊢; exact fun _ => this
        | ok ls =>
          rw [h] at ih
          cases ss with
          | nil => simp
          | cons y ss => have := ih ss; simp at this ⊢; rw [← this]; exact fun _ => Iff.rfl
      · cases ss <;> simp
      · cases ss <;> simp
      · rename_i s
        cases h : asTokens rest with
        | error e =>
          rw [h] at ih
          cases ss with
          | nil => simp
          | cons y ss => have := ih ss; simp at this ⊢; exact fun _ => this
        | ok ls =>
          rw [h] at ih
          cases ss with
          | nil => simp
          | cons y ss => have := ih ss; simp at this ⊢; rw [← this]; exact fun _ => Iff.rfl
  exact key sentences ss

theorem texts_error (split : String → List String) (b : Bool) (sentences : List Input) (e : PyErr) (h : texts split b sentences = .error e) : e = .valueError := by
  unfold texts at h
  cases ht : tokenise split b sentences with
  | ok ts => rw [ht] at h; simp at h
  | error e' =>
    rw [ht] at h
    cases h
    exact (tokenise_error split b sentences _ ht)

/-- The indices of the blank texts. -/
def blankIdx : Nat → List String → List Nat
  | _, [] => []
  | i, s :: rest => if s = "" then i :: blankIdx (i + 1) rest else blankIdx (i + 1) rest

theorem blanks_suppress : ∀ (i : Nat) (ss : List String), blanks true i ss = .ok (blankIdx i ss)
  | _, [] => rfl
  | i, s :: ss => by
    unfold blanks blankIdx
    split
    · rw [if_pos rfl, blanks_suppress (i + 1) ss]
    · exact blanks_suppress (i + 1) ss

theorem blanks_raise : ∀ (i : Nat) (ss : List String), blanks false i ss = if "" ∈ ss then .error .valueError else .ok []
  | _, [] => rfl
  | i, s :: ss => by
    unfold blanks
    by_cases h : s = ""
    · simp [h]
    · rw [if_neg h, blanks_raise (i + 1) ss]
      simp [Ne.symm h]

theorem blankIdx_succ : ∀ (i : Nat) (ss : List String), blankIdx (i + 1) ss = (blankIdx i ss).map (· + 1)
  | _, [] => rfl
  | i, s :: ss => by
    unfold blankIdx
    rw [blankIdx_succ (i + 1) ss]
    split <;> simp

theorem delAll_blank : ∀ ss : List String, delAll ss (blankIdx 0 ss).reverse = ss.filter (fun s => decide (s ≠ ""))
  | [] => rfl
  | s :: ss => by
    unfold blankIdx
    rw [blankIdx_succ]
    split
    · rename_i h
      rw [List.reverse_cons, delAll_append, ← List.map_reverse, delAll_succ, delAll_blank ss, List.filter_cons, if_neg (by simp [h])]
      rfl
    · rename_i h
      rw [← List.map_reverse, delAll_succ, delAll_blank ss, List.filter_cons, if_pos (by simp [h])]

theorem reinsert_blank {T : Type} : ∀ (ss : List String) (rs : List (Option T)), rs.length = (ss.filter (fun s => decide (s ≠ ""))).length →
    (reinsert rs (blankIdx 0 ss)).length = ss.length ∧ ∀ i s, ss[i]? = some s → (reinsert rs (blankIdx 0 ss))[i]? = if s = "" then some none else rs[requestNo ss i]?
  | [], rs, h => by
    have : rs = [] := by simpa using h
    subst this; simp [blankIdx, reinsert]
  | s :: ss, rs, h => by
    unfold blankIdx
    rw [blankIdx_succ]
    by_cases hs : s = ""
    · rw [if_pos hs, reinsert, pyInsert, List.take_zero, List.drop_zero, List.nil_append, reinsert_succ]
      obtain ⟨h1, h2⟩ := reinsert_blank ss rs (by rw [h, List.filter_cons, if_neg (by simp [hs])])
      refine ⟨by simp [h1], ?_⟩
      intro i t hi
      cases i with
      | zero => simp at hi; subst hi; simp [hs]
      | succ i =>
        simp only [List.getElem?_cons_succ] at hi ⊢
        have e : requestNo (s :: ss) (i + 1) = requestNo ss i := by simp [requestNo, List.filter_cons, hs]
        rw [h2 i t hi, e]
    · rw [if_neg hs]
      cases rs with
      | nil => rw [List.filter_cons, if_pos (by simp [hs])] at h; simp at h
      | cons r rs =>
        rw [reinsert_succ]
        obtain ⟨h1, h2⟩ := reinsert_blank ss rs (by rw [List.filter_cons, if_pos (by simp [hs])] at h; simpa using h)
        refine ⟨by simp [h1], ?_⟩
        intro i t hi
        cases i with
        | zero => simp at hi; subst hi; simp [hs, requestNo]
        | succ i =>
          simp only [List.getElem?_cons_succ] at hi ⊢
          have e : requestNo (s :: ss) (i + 1) = requestNo ss i + 1 := by simp [requestNo, List.filter_cons, hs]
          rw [h2 i t hi, e, List.getElem?_cons_succ]

theorem loop_ok {J T : Type} {service : Nat → String → Reply J} {fromJson : J → Except PyErr (Option T)} {suppress : Bool} : ∀ (k : Nat) (ss : List String),
    (∀ i s, ss[i]? = some s → ∃ o, handle fromJson suppress (service (k + i) s) = .ok o) →
    ∃ rs, loop service fromJson suppress k ss = (.ok rs, ss) ∧ rs.length = ss.length ∧ ∀ i s, ss[i]? = some s → ∃ o, handle fromJson suppress (service (k + i) s) = .ok o ∧ rs[i]? = some o
  | _, [], _ => ⟨[], rfl, rfl, by simp⟩
  | k, s :: ss, h => by
    obtain ⟨o, ho⟩ := h 0 s rfl
    obtain ⟨rs, h1, h2, h3⟩ := loop_ok (k + 1) ss (fun i t ht => by
      have := h (i + 1) t (by simpa using ht)
      rwa [show k + (i + 1) = k + 1 + i by omega] at this)
    refine ⟨o :: rs, ?_, by simp [h2], ?_⟩
    · rw [Nat.add_zero] at ho
      rw [loop, ho]; simp only [h1]
    · intro i t ht
      cases i with
      | zero => simp at ht; subst ht; exact ⟨o, ho, rfl⟩
      | succ i =>
        obtain ⟨o, h4, h5⟩ := h3 i t (by simpa using ht)
        exact ⟨o, by rwa [show k + (i + 1) = k + 1 + i by omega], by simpa using h5⟩

theorem loop_error {J T : Type} {service : Nat → String → Reply J} {fromJson : J → Except PyErr (Option T)} {suppress : Bool} {e : PyErr} : ∀ (m k : Nat) (ss : List String) (s : String),
    (∀ i t, i < m → ss[i]? = some t → ∃ o, handle fromJson suppress (service (k + i) t) = .ok o) → ss[m]? = some s → handle fromJson suppress (service (k + m) s) = .error e →
    loop service fromJson suppress k ss = (.error e, ss.take (m + 1))
  | _, _, [], _, _, h, _ => by simp at h
  | 0, k, t :: ss, s, _, h, he => by
    simp at h; subst h
    rw [Nat.add_zero] at he
    rw [loop, he]; simp
  | m + 1, k, t :: ss, s, hall, h, he => by
    obtain ⟨o, ho⟩ := hall 0 t (by omega) rfl
    rw [Nat.add_zero] at ho
    have := loop_error (e := e) m (k + 1) ss s (fun i u hi hu => by
      have := hall (i + 1) u (by omega) (by simpa using hu)
      rwa [show k + (i + 1) = k + 1 + i by omega] at this) (by simpa using h) (by rwa [show k + (m + 1) = k + 1 + m by omega] at he)
    rw [loop, ho]; simp only [this, List.take_succ_cons]

/-! ## Theorems -/

/-- **C105 (suppressed exceptions).** Let all sentences have the type that `tokenised` asks for, with texts `ss`, and let the data of the service be readable. With `suppress_exceptions` there is one entry for every
sentence. Blank texts are not sent and have the entry `None`; the others are sent once, in order, and the entry is what is read from the data, or `None` if the request has failed. -/
theorem C105_suppress {J T : Type} (split : String → List String) (service : Nat → String → Reply J) (fromJson : J → Except PyErr (Option T)) (tokenised : Bool) (sentences : List Input) (ss : List String)
    (ht : sentences.map (textOf split tokenised) = ss.map some) (hj : ∀ k s j, service k s = .data j → ∃ o, fromJson j = .ok o) :
    ∃ rs, webTrees split service fromJson tokenised true sentences = (.ok rs, ss.filter (fun s => decide (s ≠ ""))) ∧ rs.length = sentences.length ∧
      ∀ i s, ss[i]? = some s → (s = "" → rs[i]? = some none) ∧
        (s ≠ "" → match service (requestNo ss i) s with
          | .data j => ∃ o, fromJson j = .ok o ∧ rs[i]? = some o
          | _ => rs[i]? = some none) := by
  have ht' := (tokenise_texts split tokenised sentences ss).2 ht
  have hlen : sentences.length = ss.length := by have := congrArg List.length ht; simpa using this
  have hh : ∀ k s, ∃ o, handle fromJson true (service k s) = .ok o := by
    intro k s
    cases h : service k s with
    | failed => exact ⟨none, rfl⟩
    | noJson => exact ⟨none, rfl⟩
    | data j => exact hj k s j h
  obtain ⟨rs, h1, h2, h3⟩ := loop_ok (service := service) (fromJson := fromJson) (suppress := true) 0 (ss.filter (fun s => decide (s ≠ ""))) (fun i s _ => hh _ _)
  obtain ⟨h4, h5⟩ := reinsert_blank ss rs h2
  refine ⟨reinsert rs (blankIdx 0 ss), ?_, by omega, ?_⟩
  · unfold webTrees
    rw [ht']
    simp only [blanks_suppress, delAll_blank, h1]
  · intro i s hi
    refine ⟨fun hs => by rw [h5 i s hi, if_pos hs], fun hs => ?_⟩
    have hreq : (ss.filter (fun s => decide (s ≠ "")))[requestNo ss i]? = some s := by
      have e : ss = ss.take i ++ s :: ss.drop (i + 1) := by
        obtain ⟨hl, hg⟩ := List.getElem?_eq_some_iff.1 hi
        rw [← hg, ← List.drop_eq_getElem_cons hl, List.take_append_drop]
      conv_lhs => rw [e]
      rw [List.filter_append, List.filter_cons, if_pos (by simp [hs]), List.getElem?_append_right (by rw [← e]; exact Nat.le_refl _), ← e, requestNo, Nat.sub_self]; rfl
    obtain ⟨o, ho1, ho2⟩ := h3 _ s hreq
    have hrs := h5 i s hi
    rw [if_neg hs, ho2] at hrs
    rw [Nat.zero_add] at ho1
    cases h : service (requestNo ss i) s with
    | failed => rw [h] at ho1; cases ho1; exact hrs
    | noJson => rw [h] at ho1; cases ho1; exact hrs
    | data j => rw [h] at ho1; exact ⟨o, ho1, hrs⟩

/-- **C105 (exceptions).** Without `suppress_exceptions`: if a text is blank, `ValueError` is raised before anything is sent. Otherwise texts are sent in order up to the first one for which the request fails
(the error of the request is raised), the answer is not JSON (`WebParseError`) or the data cannot be read (the error of `from_json`). -/
theorem C105_raise {J T : Type} (split : String → List String) (service : Nat → String → Reply J) (fromJson : J → Except PyErr (Option T)) (tokenised : Bool) (sentences : List Input) (ss : List String)
    (ht : sentences.map (textOf split tokenised) = ss.map some) :
    ("" ∈ ss → webTrees split service fromJson tokenised false sentences = (.error .valueError, [])) ∧
    ("" ∉ ss → (∀ i s, ss[i]? = some s → ∃ j o, service i s = .data j ∧ fromJson j = .ok o) →
      ∃ rs, webTrees split service fromJson tokenised false sentences = (.ok rs, ss) ∧ rs.length = sentences.length ∧ ∀ i s j, ss[i]? = some s → service i s = .data j → ∃ o, fromJson j = .ok o ∧ rs[i]? = some o) ∧
    ("" ∉ ss → ∀ m s, ss[m]? = some s → (∀ i t, i < m → ss[i]? = some t → ∃ j o, service i t = .data j ∧ fromJson j = .ok o) →
      (service m s = .failed → webTrees split service fromJson tokenised false sentences = (.error .runtimeError, ss.take (m + 1))) ∧
      (service m s = .noJson → webTrees split service fromJson tokenised false sentences = (.error .parseError, ss.take (m + 1))) ∧
      (∀ j e, service m s = .data j → fromJson j = .error e → webTrees split service fromJson tokenised false sentences = (.error e, ss.take (m + 1)))) := by
  have ht' := (tokenise_texts split tokenised sentences ss).2 ht
  have hlen : sentences.length = ss.length := by have := congrArg List.length ht; simpa using this
  have hnb : "" ∉ ss → webTrees split service fromJson tokenised false sentences = loop service fromJson false 0 ss := by
    intro hb
    unfold webTrees
    rw [ht']
    simp only [blanks_raise, if_neg hb, List.reverse_nil, delAll]
    rcases hl : loop service fromJson false 0 ss with ⟨r, l⟩
    cases r <;> simp [reinsert]
  refine ⟨?_, ?_, ?_⟩
  · intro hb
    unfold webTrees
    rw [ht']
    simp only [blanks_raise, if_pos hb]
  · intro hb hall
    obtain ⟨rs, h1, h2, h3⟩ := loop_ok (service := service) (fromJson := fromJson) (suppress := false) 0 ss (fun i s hi => by
      obtain ⟨j, o, h, h'⟩ := hall i s hi
      exact ⟨o, by rw [Nat.zero_add, h]; exact h'⟩)
    refine ⟨rs, by rw [hnb hb, h1], by omega, ?_⟩
    intro i s j hi hj
    obtain ⟨o, ho, hr⟩ := h3 i s hi
    rw [Nat.zero_add, hj] at ho
    exact ⟨o, ho, hr⟩
  · intro hb m s hm hall
    rw [hnb hb]
    have key : ∀ e, handle fromJson false (service m s) = .error e → loop service fromJson false 0 ss = (.error e, ss.take (m + 1)) := by
      intro e he
      refine loop_error m 0 ss s ?_ hm (by rwa [Nat.zero_add])
      intro i t hi hti
      obtain ⟨j, o, h, h'⟩ := hall i t hi hti
      exact ⟨o, by rw [Nat.zero_add, h]; exact h'⟩
    exact ⟨fun h => key _ (by rw [h]; rfl), fun h => key _ (by rw [h]; rfl), fun j e h h' => key _ (by rw [h]; exact h')⟩

/-- **C105 (wrong types).** If a sentence does not have the type that `tokenised` asks for, `ValueError` is raised and nothing is sent, whether or not exceptions are suppressed. -/
theorem C105_types {J T : Type} (split : String → List String) (service : Nat → String → Reply J) (fromJson : J → Except PyErr (Option T)) (tokenised suppress : Bool) (sentences : List Input)
    (h : ∃ x ∈ sentences, textOf split tokenised x = none) : webTrees split service fromJson tokenised suppress sentences = (.error .valueError, []) := by
  unfold webTrees
  cases ht : texts split tokenised sentences with
  | error e => rw [texts_error split tokenised sentences e ht]
  | ok ss =>
    obtain ⟨x, hx, h⟩ := h
    have := (tokenise_texts split tokenised sentences ss).1 ht
    have hm := List.mem_map_of_mem (f := textOf split tokenised) hx
    rw [this, h] at hm
    simp at hm

/-- **C105 (names).** A name that is not in lower case, but whose lower case is the name of a service, passes the check and then raises `KeyError`; all other names that are no names of services raise `ValueError`. -/
theorem C105_name (lower : String → String) (urls : List (String × String)) (name : String) : (∀ u, urls.lookup name = some u → lower name = name → serviceUrl lower urls name = .ok u) ∧
    (lower name ∈ urls.map Prod.fst → name ∉ urls.map Prod.fst → serviceUrl lower urls name = .error .keyError) ∧ (lower name ∉ urls.map Prod.fst → serviceUrl lower urls name = .error .valueError) := by
  refine ⟨?_, ?_, ?_⟩
  · intro u hu hl
    have hmem : (urls.map Prod.fst).contains (lower name) = true := by
      rw [hl, List.contains_iff_mem]
      by_contra hn
      have : urls.lookup name = none := List.lookup_eq_none_iff.2 (fun p hp => by
        rw [bne_iff_ne]
        exact fun e => hn (e ▸ List.mem_map_of_mem hp))
      rw [hu] at this; cases this
    rw [serviceUrl, if_pos hmem, hu]
  · intro h1 h2
    rw [serviceUrl, if_pos (List.contains_iff_mem.2 h1)]
    have : urls.lookup name = none := List.lookup_eq_none_iff.2 (fun p hp => by
        rw [bne_iff_ne]
        exact fun e => h2 (e ▸ List.mem_map_of_mem hp))
    rw [this]
  · intro h
    rw [serviceUrl, if_neg (fun e => h (List.contains_iff_mem.1 e))]

/-! ## Concrete cases -/

/-- A service that fails at the second request. -/
def exService : Nat → String → Reply Nat := fun k _ => if k = 1 then .failed else .data k
def exRead : Nat → Except PyErr (Option Nat) := fun j => .ok (some j)

/-- The hypotheses of C105_suppress and C105_raise hold for three sentences, one of them blank. -/
example : [Input.tokens ["a", "b"], .tokens [], .tokens ["c"]].map (textOf (fun _ => []) true) = ["a b", "", "c"].map some ∧ (∀ k s j, exService k s = .data j → ∃ o, exRead j = .ok o) ∧
    webTrees (fun _ => []) exService exRead true true [.tokens ["a", "b"], .tokens [], .tokens ["c"]] = (.ok [some 0, none, none], ["a b", "c"]) ∧
    webTrees (fun _ => []) exService exRead true false [.tokens ["a", "b"], .tokens ["c"], .tokens ["d"]] = (.error .runtimeError, ["a b", "c"]) := by
  refine ⟨by decide +kernel, fun k s j _ => ⟨_, rfl⟩, by decide +kernel, by decide +kernel⟩

/-- **C105, refuted for data that cannot be read.** `CCGTree.from_json` is called outside of the `try`: with `suppress_exceptions` its error is raised, and the trees of the other sentences are lost. -/
theorem C105_refuted_json : ∃ (service : Nat → String → Reply Nat) (fromJson : Nat → Except PyErr (Option Nat)),
    webTrees (fun _ => []) service fromJson true true [.tokens ["a"], .tokens ["b"]] = (.error .keyError, ["a", "b"]) := by
  refine ⟨fun k _ => .data k, fun j => if j = 0 then .ok (some 0) else .error .keyError, by decide +kernel⟩

/-- **C105, refuted for the data `null`.** Also without `suppress_exceptions` an entry may be `None`. -/
theorem C105_refuted_null : ∃ (service : Nat → String → Reply (Option Nat)), webTrees (fun _ => []) service (fun j => .ok j) true false [.tokens ["a"]] = (.ok [none], ["a"]) := by
  refine ⟨fun _ _ => .data none, by decide +kernel⟩

/-- **C105, refuted for blank tokens.** A list of two empty tokens is not blank: the text " " is sent. -/
theorem C105_refuted_blank_tokens : webTrees (fun _ => []) exService exRead true false [.tokens ["", ""]] = (.ok [some 0], [" "]) := by decide +kernel

end Web
end Lambeq
